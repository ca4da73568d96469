import Verif.Deriv.Thm

/-!
# C88: derivatives, evaluation, free symbols, Taylor series
-/

namespace QNET.Deriv

open QNET.Perm (Res Err)
open QNET (isort)
open QNET.Indexed (Except.bind_ok)
open scoped ContDiff

set_option linter.unusedSectionVars false

variable {ι : Type} [LinearOrder ι]

/-! ### the objects the theorems are about -/

/-- the orders of the derivatives are positive, values are given for parameters of the derivative only (the constructor checks both), and the
keys of dictionaries are distinct -/
def WFd (d : List (ι × ℕ)) (v : List (ι × PV ι)) : Prop :=
  (d.map Prod.fst).Nodup ∧ (∀ p ∈ d, p.2 ≠ 0) ∧ (v.map Prod.fst).Nodup ∧ ∀ p ∈ v, p.1 ∈ d.map Prod.fst

/-- not a derivative -/
def Leaf : DX ι → Prop
  | .sym _ _ => True
  | .expl _ _ _ => True
  | .adj (.sym _ _) => True
  | _ => False

/-- symbols, explicit expressions, adjoints of symbols, and derivatives of these, where the derivative of an evaluated derivative is not itself
evaluated -/
def Regular : DX ι → Prop
  | .zero => True
  | .sym _ _ => True
  | .expl _ _ _ => True
  | .adj (.sym _ _) => True
  | .adj _ => False
  | .deriv y d v => Regular y ∧ WFd d v ∧ (v = [] ∨ Leaf y)

/-- the symbols in the arguments -/
def syms : DX ι → Finset ι
  | .zero => ∅
  | .sym _ args => freeArgs args
  | .expl c _ _ => c.free
  | .adj x => syms x
  | .deriv x _ _ => syms x

/-- symbols in an evaluation point -/
def PV.free : PV ι → Finset ι
  | .py _ => ∅
  | .sc e => e.free

/-- the parameter `s` occurs in an evaluation point only if one of the points is `s` itself, and it is not replaced -/
def Simple (s : ι) : DX ι → Prop
  | .deriv _ _ v => (∃ p ∈ v, s ∈ p.2.free) → s ∉ v.map Prod.fst ∧ PV.sc (.sym s) ∈ v.map Prod.snd
  | _ => True

variable (E : Env ι)

/-- no dummies -/
def NoDum (x : DX ι) : Prop := ∀ i ∈ syms x, E.isDum i = false

/-- no evaluation point is a Python number -/
def NoPy : DX ι → Prop
  | .adj x => NoPy x
  | .deriv x _ v => NoPy x ∧ ∀ p ∈ v, ∃ e, p.2 = .sc e
  | _ => True

variable {E}

/-! ### free symbols -/

theorem freeArgs_mem {args : List (Sc ι)} {i : ι} : i ∈ freeArgs args ↔ ∃ e ∈ args, i ∈ e.free := by
  unfold freeArgs
  induction args with
  | nil => simp
  | cons e l ih => simp only [List.foldr_cons, Finset.mem_union, ih, List.mem_cons, exists_eq_or_imp]

theorem subs_free {e : Sc ι} {m : List (ι × PV ι)} {i : ι} (hi : i ∈ e.free) (hm : get m i = none) : i ∈ (e.subs m).free := by
  induction e with
  | num q => simp [Sc.free] at hi
  | sym j =>
    simp only [Sc.free, Finset.mem_singleton] at hi
    subst hi
    simp [Sc.subs, hm, Sc.free]
  | add a b ha hb =>
    simp only [Sc.free, Sc.subs, Finset.mem_union] at *
    exact hi.imp ha hb
  | mul a b ha hb =>
    simp only [Sc.free, Sc.subs, Finset.mem_union] at *
    exact hi.imp ha hb

theorem subs_freeArgs {args : List (Sc ι)} {m : List (ι × PV ι)} {i : ι} (hi : i ∈ freeArgs args) (hm : get m i = none) :
    i ∈ freeArgs (args.map (Sc.subs m)) := by
  obtain ⟨e, he, h⟩ := freeArgs_mem.mp hi
  exact freeArgs_mem.mpr ⟨_, List.mem_map.mpr ⟨e, he, rfl⟩, subs_free h hm⟩

theorem get_dummies {v : List (ι × PV ι)} {g : ι → PV ι} {i : ι} (h : get v i = none) : get (v.map (fun p => (p.1, g p.1))) i = none := by
  rw [get_eq_none] at *
  rw [List.map_map]
  exact h

theorem freeVals_sound {v : List (ι × PV ι)} {g : Finset ι} (h : freeVals v = .ok g) : ∀ p ∈ v, p.2.free ⊆ g := by
  induction v generalizing g with
  | nil => simp
  | cons p v ih =>
    obtain ⟨i, pv⟩ := p
    cases pv with
    | py q => cases h
    | sc e =>
      simp only [freeVals] at h
      obtain ⟨f, hf, h2⟩ := Except.bind_ok h
      cases h2
      intro q hq
      rcases List.mem_cons.mp hq with rfl | hq
      · exact Finset.subset_union_left
      · exact (ih hf q hq).trans Finset.subset_union_right

theorem freeVals_total {v : List (ι × PV ι)} (h : ∀ p ∈ v, ∃ e, p.2 = .sc e) : ∃ g, freeVals v = .ok g := by
  induction v with
  | nil => exact ⟨_, rfl⟩
  | cons p v ih =>
    obtain ⟨i, pv⟩ := p
    obtain ⟨e, he⟩ := h _ (List.mem_cons_self)
    dsimp only at he
    subst he
    obtain ⟨g, hg⟩ := ih fun q hq => h q (List.mem_cons_of_mem _ hq)
    exact ⟨_, by simp only [freeVals, hg]; rfl⟩

section values
variable {V : Type} [NormedAddCommGroup V] [NormedSpace ℝ V] [StarAddMonoid V] {F : ℕ → List ℝ → V}

theorem pveval_depends (p : PV ι) : DependsOn (fun ρ => p.eval ρ) p.free := by
  cases p with
  | py q => exact fun _ _ _ => rfl
  | sc e => exact eval_depends e

theorem point_depends {f : (ι → ℝ) → V} {S T : Finset ι} (hf : DependsOn f S) {v : List (ι × PV ι)}
    (h1 : ∀ i ∈ S, get v i = none → i ∈ T) (h2 : ∀ p ∈ v, p.2.free ⊆ T) : DependsOn (fun ρ => f (point v ρ)) T := by
  intro ρ ρ' hr
  refine hf _ _ fun i hi => ?_
  unfold point
  cases hg : get v i with
  | none => exact hr i (h1 i hi hg)
  | some p => exact pveval_depends p _ _ fun j hj => hr j (h2 _ (get_mem hg) hj)

theorem leaf_depends {x : DX ι} (h : Leaf x) : DependsOn (val F x) (syms x) := by
  have hs : ∀ (a : ℕ) (args : List (Sc ι)), DependsOn (val F (.sym a args)) (syms (.sym a args : DX ι)) := by
    intro a args ρ ρ' hr
    simp only [val]
    congr 1
    refine List.map_congr_left fun e he => eval_depends e _ _ fun i hi => hr i (freeArgs_mem.mpr ⟨e, he, hi⟩)
  cases x with
  | zero => exact h.elim
  | sym a args => exact hs a args
  | expl c a dag =>
    intro ρ ρ' hr
    simp only [val]
    rw [show c.eval ρ = c.eval ρ' from eval_depends c _ _ hr]
  | adj y =>
    cases y with
    | sym a args => intro ρ ρ' hr; exact congrArg star (hs a args ρ ρ' hr)
    | _ => exact h.elim
  | deriv y d v => exact h.elim

theorem point_nil : (point ([] : List (ι × PV ι))) = id := by funext ρ i; rfl

/-- C88 (partial: the derivative of an evaluated derivative is not evaluated again): the value depends on the parameters in `free_symbols` only. -/
theorem C88_free_partial {x : DX ι} (hr : Regular x) (hd : NoDum E x) {n : ℕ} {S : Finset ι} (h : free E n x = .ok S) :
    DependsOn (val F x) S := by
  induction x generalizing n S with
  | zero => exact fun _ _ _ => rfl
  | sym a args =>
    cases n with
    | zero => cases h
    | succ n => simp only [free] at h; cases h; exact leaf_depends (x := .sym a args) trivial
  | expl c a dag =>
    cases n with
    | zero => cases h
    | succ n => simp only [free] at h; cases h; exact leaf_depends (x := .expl c a dag) trivial
  | adj y ih =>
    cases n with
    | zero => cases h
    | succ n =>
      simp only [free] at h
      have := ih (by cases y <;> trivial) hd h
      intro ρ ρ' hh
      simp only [val, this ρ ρ' hh]
  | deriv y d v ih =>
    cases n with
    | zero => cases h
    | succ n =>
      obtain ⟨hy, hw, hv⟩ := hr
      simp only [free] at h
      split at h
      · rename_i hv0
        subst hv0
        have := pds_depends (ih hy hd h) d
        intro ρ ρ' hh
        simp only [val, point_nil, id, this ρ ρ' hh]
      · rename_i hv0
        have hl := hv.resolve_left hv0
        obtain ⟨z, hz, h⟩ := Except.bind_ok h
        obtain ⟨f, hf, h⟩ := Except.bind_ok h
        obtain ⟨g, hg, h⟩ := Except.bind_ok h
        cases h
        have hfree : ∀ i ∈ syms y, get v i = none → i ∈ f := by
          intro i hi hgi
          have hgi' := get_dummies (g := fun j => .sc (.sym (E.dum j))) hgi
          cases n with
          | zero => cases hz
          | succ n =>
            cases y with
            | zero => exact hl.elim
            | sym a args =>
              simp only [subst, List.find?_nil] at hz
              cases hz
              simp only [free] at hf
              cases hf
              exact subs_freeArgs hi hgi'
            | expl c a dag =>
              simp only [subst, List.find?_nil] at hz
              cases hz
              simp only [free] at hf
              cases hf
              exact subs_free hi hgi'
            | adj y =>
              cases y with
              | sym a args =>
                simp only [subst, List.find?_nil] at hz
                cases n with
                | zero => simp only [subst] at hz; cases hz
                | succ n =>
                  simp only [subst, List.find?_nil] at hz
                  cases hz
                  simp only [adjoint, free] at hf
                  cases hf
                  exact subs_freeArgs hi hgi'
              | _ => exact hl.elim
            | deriv y d v => exact hl.elim
        refine point_depends (pds_depends (leaf_depends hl) d) (fun i hi hgi => ?_) fun p hp => ?_
        · exact Finset.mem_union_left _ (Finset.mem_filter.mpr ⟨hfree i hi hgi, hd i hi⟩)
        · exact (freeVals_sound hg p hp).trans Finset.subset_union_right

/-! ### differentiation -/

theorem adjoint_syms (x : DX ι) : syms (adjoint x) = syms x := by
  induction x with
  | deriv y d v ih => simp only [adjoint, syms, ih]
  | _ => rfl

theorem adjoint_leaf {x : DX ι} (h : Leaf x) : Leaf (adjoint x) := by
  cases x with
  | adj y => cases y <;> trivial
  | deriv y d v => exact h.elim
  | zero => exact h.elim
  | _ => trivial

theorem adjoint_regular {x : DX ι} (h : Regular x) : Regular (adjoint x) := by
  induction x with
  | adj y => cases y <;> trivial
  | deriv y d v ih => exact ⟨ih h.1, h.2.1, h.2.2.imp id adjoint_leaf⟩
  | _ => trivial

theorem adjoint_simple {s : ι} {x : DX ι} (h : Regular x) (hs : Simple s x) : Simple s (adjoint x) := by
  cases x with
  | adj y => cases y <;> trivial
  | deriv y d v => exact hs
  | _ => trivial

variable (E) in
/-- what is preserved by differentiation with respect to `s` -/
def Inv (s : ι) (x : DX ι) : Prop := Regular x ∧ NoDum E x ∧ Simple s x

theorem adjoint_inv {s : ι} {x : DX ι} (h : Inv E s x) : Inv E s (adjoint x) :=
  ⟨adjoint_regular h.1, by unfold NoDum; rw [adjoint_syms]; exact h.2.1, adjoint_simple h.1 h.2.2⟩

theorem diff_free (s : ι) (e : Sc ι) : (e.diff s).free ⊆ e.free := by
  induction e with
  | num q => simp [Sc.diff, Sc.free]
  | sym i => by_cases h : i = s <;> simp [Sc.diff, Sc.free, h]
  | add a b ha hb => exact Finset.union_subset_union ha hb
  | mul a b ha hb =>
    simp only [Sc.diff, Sc.free]
    exact Finset.union_subset (Finset.union_subset_union ha (subset_refl _)) (Finset.union_subset_union (subset_refl _) hb)

theorem wfd_ordered {d : List (ι × ℕ)} {v : List (ι × PV ι)} (h : WFd d v) : WFd (ordered d) (ordered v) := by
  obtain ⟨h1, h2, h3, h4⟩ := h
  refine ⟨(((ordered_perm d).map Prod.fst).nodup_iff).mpr h1, fun p hp => h2 p ((ordered_perm d).mem_iff.mp hp),
    (((ordered_perm v).map Prod.fst).nodup_iff).mpr h3, fun p hp => ?_⟩
  rw [((ordered_perm d).map Prod.fst).mem_iff]
  exact h4 p ((ordered_perm v).mem_iff.mp hp)

theorem mk_eq {x r : DX ι} {d : List (ι × ℕ)} {v : List (ι × PV ι)} (h : mk x d v = .ok r) : r = .deriv x (ordered d) (ordered v) := by
  unfold mk at h
  split at h
  · cases h
  · split at h
    · cases h
    · cases h; rfl

theorem mk_ok (x : DX ι) {d : List (ι × ℕ)} {v : List (ι × PV ι)} (h : WFd d v) : mk x d v = .ok (.deriv x (ordered d) (ordered v)) := by
  unfold mk
  rw [if_neg, if_neg]
  · simp only [List.any_eq_true, decide_eq_true_eq, not_exists, not_and, not_not]
    exact fun p hp => h.2.2.2 p hp
  · simp only [List.any_eq_true, decide_eq_true_eq, not_exists, not_and]
    exact fun p hp => h.2.1 p hp

theorem wfd_one (s : ι) : WFd [(s, 1)] ([] : List (ι × PV ι)) := by
  refine ⟨by simp, by simp, by simp, by simp⟩

theorem wfd_incr {d : List (ι × ℕ)} {v : List (ι × PV ι)} (h : WFd d v) (s : ι) : WFd (set d s ((get d s).getD 0 + 1)) v := by
  obtain ⟨h1, h2, h3, h4⟩ := h
  refine ⟨nodup_set h1 _ _, fun p hp => ?_, h3, fun p hp => ?_⟩
  · have := get_of_mem (nodup_set h1 s ((get d s).getD 0 + 1)) (k := p.1) (v := p.2) hp
    rw [get_set] at this
    split at this
    · have h5 := Option.some.inj this; omega
    · exact h2 _ (get_mem this)
  · rw [keys_set]
    split
    · exact h4 p hp
    · exact List.mem_append_left _ (h4 p hp)

theorem point_ordered {v : List (ι × PV ι)} (hv : (v.map Prod.fst).Nodup) : point (ordered v) = point v := by
  funext ρ i
  unfold point
  rw [get_perm (ordered_perm v) ((((ordered_perm v).map Prod.fst).nodup_iff).mpr hv)]

theorem pd_const_in {f : (ι → ℝ) → V} {s : ι} (h : ∀ ρ u, f (Function.update ρ s u) = f ρ) : pd s f = 0 := by
  funext ρ
  show deriv (fun u => f (Function.update ρ s u)) _ = 0
  simp only [h, deriv_const]

theorem pd_point {g : (ι → ℝ) → V} {s : ι} {v : List (ι × PV ι)} (hk : s ∉ v.map Prod.fst) (hf : ∀ p ∈ v, s ∉ p.2.free) :
    pd s (fun ρ => g (point v ρ)) = fun ρ => pd s g (point v ρ) := by
  funext ρ
  have h : ∀ u, point v (Function.update ρ s u) = Function.update (point v ρ) s u := by
    intro u
    funext i
    by_cases hi : i = s
    · subst hi
      simp only [point, get_eq_none.mpr hk, Function.update_self]
    · rw [Function.update_of_ne hi]
      unfold point
      cases hg : get v i with
      | none => simp [Function.update_of_ne hi]
      | some p =>
        refine pveval_depends p _ _ fun j hj => ?_
        rw [Function.update_of_ne]
        rintro rfl
        exact hf _ (get_mem hg) hj
  show deriv (fun u => g (point v (Function.update ρ s u))) (ρ s) = deriv (fun u => g (Function.update (point v ρ) s u)) (point v ρ s)
  simp only [h]
  rw [show point v ρ s = ρ s by simp only [point, get_eq_none.mpr hk]]

theorem point_key {s : ι} {v : List (ι × PV ι)} (hk : s ∈ v.map Prod.fst) (hf : ∀ p ∈ v, s ∉ p.2.free) (ρ : ι → ℝ) (u : ℝ) :
    point v (Function.update ρ s u) = point v ρ := by
  funext i
  unfold point
  cases hg : get v i with
  | none =>
    have : i ≠ s := by rintro rfl; exact get_eq_none.mp hg hk
    simp [Function.update_of_ne this]
  | some p =>
    refine pveval_depends p _ _ fun j hj => ?_
    rw [Function.update_of_ne]
    rintro rfl
    exact hf _ (get_mem hg) hj

variable [Fintype ι] [NormedStarGroup V] [StarModule ℝ V]

theorem adjoint_val (hF : Smooth F) (x : DX ι) : val F (adjoint x) = fun ρ => star (val F x ρ) := by
  induction x with
  | zero => funext ρ; simp [adjoint, val]
  | sym a args => rfl
  | expl c a dag =>
    funext ρ
    cases dag <;> simp [adjoint, val, star_smul]
  | adj y ih => funext ρ; simp [adjoint, val]
  | deriv y d v ih =>
    funext ρ
    simp only [adjoint, val, ih]
    rw [pds_star (val_smooth hF y)]

theorem diff1_val (hE : E.Ok) (hF : Smooth F) {s : ι} {n : ℕ}
    (hd : ∀ m < n, ∀ y r, Inv E s y → diff E m y s 1 = .ok r → Inv E s r ∧ val F r = pd s (val F y)) {x r : DX ι} (hx : Inv E s x)
    (h : diff1 E n s x = .ok r) : Inv E s r ∧ val F r = pd s (val F x) := by
  cases n with
  | zero => cases h
  | succ n =>
    have inv0 : Inv E s .zero := ⟨trivial, by simp [NoDum, syms], trivial⟩
    have val0 : val F (.zero : DX ι) = 0 := rfl
    cases x with
    | zero =>
      simp only [diff1] at h; cases h
      exact ⟨inv0, by rw [val0, pd_zero]⟩
    | sym a args =>
      simp only [diff1] at h
      split at h
      · rename_i hz
        cases h
        refine ⟨inv0, ?_⟩
        rw [val0, pd_const_in]
        intro ρ u
        simp only [val]
        congr 1
        refine List.map_congr_left fun e he => eval_const (hE.dz e s ?_) ρ u
        exact List.all_eq_true.mp hz e he
      · rw [mk_ok _ (wfd_one s)] at h
        cases h
        exact ⟨⟨⟨trivial, wfd_ordered (wfd_one s), Or.inl rfl⟩, hx.2.1, by rintro ⟨p, hp, _⟩; exact absurd hp List.not_mem_nil⟩, rfl⟩
    | expl c a dag =>
      simp only [diff1] at h
      have hv : pd s (val F (.expl c a dag)) = fun ρ => (c.diff s).eval ρ • (if dag then star (F a []) else F a []) := by
        funext ρ
        rw [← eval_diff c s ρ]
        have hdiff : DifferentiableAt ℝ (fun u => c.eval (Function.update ρ s u)) (ρ s) := by
          have h1 : Differentiable ℝ (fun u : ℝ => Function.update ρ s u) := fun u => (update_hasFDeriv ρ s u).differentiableAt
          exact (((eval_smooth c).differentiable (by simp)).comp h1) _
        exact deriv_smul_const hdiff _
      split at h
      · rename_i hz
        cases h
        refine ⟨inv0, ?_⟩
        rw [val0, hv]
        funext ρ
        rw [hE.dz c s hz ρ, zero_smul]; rfl
      · cases h
        refine ⟨⟨trivial, fun i hi => hx.2.1 i (diff_free s c hi), trivial⟩, ?_⟩
        rw [hv]; rfl
    | adj y =>
      simp only [diff1] at h
      obtain ⟨z, hz, h⟩ := Except.bind_ok h
      cases h
      have hy : Inv E s y := by
        cases y with
        | sym a args => exact ⟨trivial, hx.2.1, trivial⟩
        | _ => exact hx.1.elim
      obtain ⟨h1, h2⟩ := hd n (Nat.lt_succ_self n) y z hy hz
      refine ⟨adjoint_inv h1, ?_⟩
      rw [adjoint_val hF, h2]
      exact (pd_star (val_smooth hF y) s).symm
    | deriv y d v =>
      obtain ⟨⟨hy, hw, hv⟩, hnd, hsim⟩ := hx
      simp only [diff1] at h
      split at h
      · rename_i hk
        cases h
        refine ⟨inv0, ?_⟩
        have hf : ∀ p ∈ v, s ∉ p.2.free := fun p hp hs => (hsim ⟨p, hp, hs⟩).1 hk
        rw [val0, pd_const_in]
        intro ρ u
        simp only [val, point_key hk hf]
      · rename_i hk
        split at h
        · rw [mk_ok _ (wfd_one s)] at h
          cases h
          exact ⟨⟨⟨⟨hy, hw, hv⟩, wfd_ordered (wfd_one s), Or.inl rfl⟩, hnd, by rintro ⟨p, hp, _⟩; exact absurd hp List.not_mem_nil⟩, rfl⟩
        · rename_i hs
          have hf : ∀ p ∈ v, s ∉ p.2.free := fun p hp hs' => hs (hsim ⟨p, hp, hs'⟩).2
          rw [mk_ok _ (wfd_incr hw s)] at h
          cases h
          refine ⟨⟨⟨hy, wfd_ordered (wfd_incr hw s), hv.imp (fun h => by subst h; rfl) id⟩, hnd, ?_⟩, ?_⟩
          · rintro ⟨p, hp, hps⟩
            exact absurd hps (hf p ((ordered_perm v).mem_iff.mp hp))
          · funext ρ
            have h1 : val F (.deriv y (ordered (set d s ((get d s).getD 0 + 1))) (ordered v)) ρ =
                pds (set d s ((get d s).getD 0 + 1)) (val F y) (point v ρ) := by
              simp only [val, point_ordered hw.2.2.1, pds_perm (val_smooth hF y) (ordered_perm _)]
            rw [h1, pds_incr (val_smooth hF y) hw.1]
            exact (congrFun (pd_point (g := pds d (val F y)) hk hf) ρ).symm

theorem repeat_val (hE : E.Ok) (hF : Smooth F) {s : ι} {n : ℕ}
    (hd : ∀ m < n, ∀ y r, Inv E s y → diff E m y s 1 = .ok r → Inv E s r ∧ val F r = pd s (val F y)) {x r : DX ι} (hx : Inv E s x) (k : ℕ)
    (h : k.repeat (fun r => r >>= diff1 E n s) (.ok x) = .ok r) : Inv E s r ∧ val F r = (pd s)^[k] (val F x) := by
  induction k generalizing r with
  | zero => cases h; exact ⟨hx, rfl⟩
  | succ k ih =>
    obtain ⟨y, hy, h⟩ := Except.bind_ok h
    obtain ⟨h1, h2⟩ := ih hy
    obtain ⟨h3, h4⟩ := diff1_val hE hF hd h1 h
    exact ⟨h3, by rw [h4, h2, Function.iterate_succ_apply']⟩

theorem pdn_of_pd_zero {f : (ι → ℝ) → V} {s : ι} (h : pd s f = 0) {k : ℕ} (hk : k ≠ 0) : (pd s)^[k] f = 0 := by
  obtain ⟨k, rfl⟩ := Nat.exists_eq_succ_of_ne_zero hk
  rw [Function.iterate_succ_apply, h, pdn_zero]

theorem create_val (hE : E.Ok) (hF : Smooth F) {s : ι} {n k : ℕ} (hk : k ≠ 0)
    (hd : ∀ m < n, ∀ y r, Inv E s y → diff E m y s 1 = .ok r → Inv E s r ∧ val F r = pd s (val F y)) {x r : DX ι} (hx : Inv E s x)
    (h : create E n x [(s, k)] [] = .ok r) : Inv E s r ∧ val F r = (pd s)^[k] (val F x) := by
  cases n with
  | zero => cases h
  | succ n =>
    simp only [create] at h
    obtain ⟨o, ho, h⟩ := Except.bind_ok h
    have ho' : derivLoop (free E n) (diff1 E n) x [(s, k)] = .ok o := ho
    simp only [derivLoop] at ho'
    obtain ⟨f, hf, ho'⟩ := Except.bind_ok ho'
    split at ho'
    · obtain ⟨y, hy, ho'⟩ := Except.bind_ok ho'
      cases ho'
      cases h
      exact repeat_val hE hF (fun m hm => hd m (Nat.lt_succ_of_lt hm)) hx k hy
    · rename_i hs
      cases ho'
      cases h
      refine ⟨⟨trivial, by simp [NoDum, syms], trivial⟩, ?_⟩
      rw [pdn_of_pd_zero (pd_of_not_mem (C88_free_partial hx.1 hx.2.1 hf) hs) hk]
      rfl

theorem diff_val (hE : E.Ok) (hF : Smooth F) {s : ι} (n : ℕ) : ∀ k ≠ 0, ∀ y r, Inv E s y → diff E n y s k = .ok r →
    Inv E s r ∧ val F r = (pd s)^[k] (val F y) := by
  induction n using Nat.strong_induction_on with
  | _ n ih =>
    intro k hk x r hx h
    cases n with
    | zero => cases h
    | succ n =>
      simp only [diff] at h
      obtain ⟨f, hf, h⟩ := Except.bind_ok h
      split at h
      · exact create_val hE hF hk (fun m hm y r hy hr => ih m (Nat.lt_succ_of_lt hm) 1 one_ne_zero y r hy hr) hx h
      · rename_i hs
        cases h
        refine ⟨⟨trivial, by simp [NoDum, syms], trivial⟩, ?_⟩
        rw [pdn_of_pd_zero (pd_of_not_mem (C88_free_partial hx.1 hx.2.1 hf) hs) hk]
        rfl

/-- C88 (partial: the evaluation points contain `s` only as one of the points, and evaluated derivatives are not derived and evaluated again):
`x.diff(s, k)` is the `k`-th partial derivative. -/
theorem C88_diff_partial (hE : E.Ok) (hF : Smooth F) {x r : DX ι} (hx : Regular x) (hd : NoDum E x) {s : ι} (hs : Simple s x) {n k : ℕ} (hk : 1 ≤ k)
    (h : diff E n x s k = .ok r) : val F r = (pd s)^[k] (val F x) :=
  (diff_val hE hF n k (by omega) x r ⟨hx, hd, hs⟩ h).2

/-! ### totality -/

theorem free_total {x : DX ι} (hx : Regular x) (hp : NoPy x) : ∃ N, ∀ n ≥ N, ∃ S, free E n x = .ok S := by
  induction x with
  | zero => exact ⟨1, fun n hn => by obtain ⟨n, rfl⟩ := Nat.exists_eq_add_of_le' hn; exact ⟨_, rfl⟩⟩
  | sym a args => exact ⟨1, fun n hn => by obtain ⟨n, rfl⟩ := Nat.exists_eq_add_of_le' hn; exact ⟨_, rfl⟩⟩
  | expl c a dag => exact ⟨1, fun n hn => by obtain ⟨n, rfl⟩ := Nat.exists_eq_add_of_le' hn; exact ⟨_, rfl⟩⟩
  | adj y ih =>
    obtain ⟨N, h⟩ := ih (by cases y <;> trivial) hp
    refine ⟨N + 1, fun n hn => ?_⟩
    obtain ⟨n, rfl⟩ := Nat.exists_eq_succ_of_ne_zero (show n ≠ 0 by omega)
    simp only [free]
    exact h n (by omega)
  | deriv y d v ih =>
    obtain ⟨N, h⟩ := ih hx.1 hp.1
    obtain ⟨g, hg⟩ := freeVals_total hp.2
    refine ⟨N + 5, fun n hn => ?_⟩
    obtain ⟨n, rfl⟩ := Nat.exists_eq_succ_of_ne_zero (show n ≠ 0 by omega)
    simp only [free]
    split
    · exact h n (by omega)
    · rename_i hv0
      have hl := hx.2.2.resolve_left hv0
      have hz : ∃ z S, subst E n (v.map (fun p => (p.1, .sc (.sym (E.dum p.1))))) [] y = .ok z ∧ free E n z = .ok S := by
        obtain ⟨m, rfl⟩ : ∃ m, n = m + 2 := ⟨n - 2, by omega⟩
        cases y with
        | zero => exact hl.elim
        | sym a args => exact ⟨_, _, rfl, rfl⟩
        | expl c a dag => exact ⟨_, _, rfl, rfl⟩
        | adj y =>
          cases y with
          | sym a args => exact ⟨_, _, rfl, rfl⟩
          | _ => exact hl.elim
        | deriv y d v => exact hl.elim
      obtain ⟨z, S, h1, h2⟩ := hz
      exact ⟨_, by rw [h1]; simp only [bind, Except.bind, h2, hg]; rfl⟩

theorem noPy_adjoint {x : DX ι} (h : NoPy x) : NoPy (adjoint x) := by
  induction x with
  | deriv y d v ih => exact ⟨ih h.1, h.2⟩
  | adj y => exact h
  | _ => trivial

theorem diff1_noPy {s : ι} {n : ℕ} (hd : ∀ m < n, ∀ y r, NoPy y → diff E m y s 1 = .ok r → NoPy r) {x r : DX ι} (hx : NoPy x)
    (h : diff1 E n s x = .ok r) : NoPy r := by
  cases n with
  | zero => cases h
  | succ n =>
    cases x with
    | zero => simp only [diff1] at h; cases h; trivial
    | sym a args =>
      simp only [diff1] at h
      split at h
      · cases h; trivial
      · rw [mk_eq h]; exact ⟨trivial, fun p hp => absurd hp List.not_mem_nil⟩
    | expl c a dag =>
      simp only [diff1] at h
      split at h <;> (cases h; trivial)
    | adj y =>
      simp only [diff1] at h
      obtain ⟨z, hz, h⟩ := Except.bind_ok h
      cases h
      exact noPy_adjoint (hd n (Nat.lt_succ_self n) y z hx hz)
    | deriv y d v =>
      simp only [diff1] at h
      split at h
      · cases h; trivial
      · split at h
        · rw [mk_eq h]; exact ⟨hx, fun p hp => absurd hp List.not_mem_nil⟩
        · rw [mk_eq h]; exact ⟨hx.1, fun p hp => hx.2 p ((ordered_perm v).mem_iff.mp hp)⟩

theorem repeat_noPy {s : ι} {n : ℕ} (hd : ∀ m < n, ∀ y r, NoPy y → diff E m y s 1 = .ok r → NoPy r) {x r : DX ι} (hx : NoPy x) (k : ℕ)
    (h : k.repeat (fun r => r >>= diff1 E n s) (.ok x) = .ok r) : NoPy r := by
  induction k generalizing r with
  | zero => cases h; exact hx
  | succ k ih =>
    obtain ⟨y, hy, h⟩ := Except.bind_ok h
    exact diff1_noPy hd (ih hy) h

theorem diff_noPy {s : ι} (n : ℕ) : ∀ k y r, NoPy y → diff E n y s k = .ok r → NoPy r := by
  induction n using Nat.strong_induction_on with
  | _ n ih =>
    intro k x r hx h
    cases n with
    | zero => cases h
    | succ n =>
      simp only [diff] at h
      obtain ⟨f, hf, h⟩ := Except.bind_ok h
      split at h
      · cases n with
        | zero => cases h
        | succ n =>
          simp only [create] at h
          obtain ⟨o, ho, h⟩ := Except.bind_ok h
          have ho' : derivLoop (free E n) (diff1 E n) x [(s, k)] = .ok o := ho
          simp only [derivLoop] at ho'
          obtain ⟨f, hf, ho'⟩ := Except.bind_ok ho'
          split at ho'
          · obtain ⟨y, hy, ho'⟩ := Except.bind_ok ho'
            cases ho'
            cases h
            exact repeat_noPy (fun m hm => ih m (by omega) 1) hx k hy
          · cases ho'; cases h; trivial
      · cases h; trivial

/-- `diff` succeeds if its parts do -/
theorem diff_total_at {x : DX ι} {s : ι} {k m : ℕ} (h1 : ∃ S, free E (m + 1) x = .ok S) (h2 : ∃ S, free E m x = .ok S)
    (h3 : ∃ r, k.repeat (fun r => r >>= diff1 E m s) (.ok x) = .ok r) : ∃ r, diff E (m + 2) x s k = .ok r := by
  obtain ⟨S1, hS1⟩ := h1
  obtain ⟨S2, hS2⟩ := h2
  obtain ⟨r, hr⟩ := h3
  simp only [diff, hS1]
  by_cases hs : s ∈ S1
  · have hl : ∃ o, derivLoop (free E m) (diff1 E m) x [(s, k)] = .ok o := by
      simp only [derivLoop, hS2]
      by_cases hs2 : s ∈ S2
      · refine ⟨some r, ?_⟩
        show (if s ∈ S2 then _ else _) = _
        rw [if_pos hs2, hr]
        rfl
      · refine ⟨none, ?_⟩
        show (if s ∈ S2 then _ else _) = _
        rw [if_neg hs2]
    obtain ⟨o, ho⟩ := hl
    have ho' : derivLoop (free E m) (diff1 E m) x (ordered [(s, k)]) = .ok o := ho
    refine ⟨o.getD .zero, ?_⟩
    show (if s ∈ S1 then create E (m + 1) x [(s, k)] [] else .ok .zero) = _
    rw [if_pos hs]
    simp only [create, ho']
    cases o <;> rfl
  · refine ⟨.zero, ?_⟩
    show (if s ∈ S1 then _ else _) = _
    rw [if_neg hs]

theorem diff_total_of {x : DX ι} (hx : Regular x) (hp : NoPy x) {s : ι} {k : ℕ}
    (h : ∃ N, ∀ n ≥ N, ∃ r, k.repeat (fun r => r >>= diff1 E n s) (.ok x) = .ok r) : ∃ N, ∀ n ≥ N, ∃ r, diff E n x s k = .ok r := by
  obtain ⟨N1, h1⟩ := free_total (E := E) hx hp
  obtain ⟨N2, h2⟩ := h
  refine ⟨N1 + N2 + 2, fun n hn => ?_⟩
  obtain ⟨m, rfl⟩ : ∃ m, n = m + 2 := ⟨n - 2, by omega⟩
  exact diff_total_at (h1 (m + 1) (by omega)) (h1 m (by omega)) (h2 m (by omega))

theorem diff1_total {x : DX ι} {s : ι} (hx : Inv E s x) {n : ℕ} (hn : 5 ≤ n) : ∃ r, diff1 E n s x = .ok r := by
  have leaf : ∀ y : DX ι, Regular y → (∀ z, y ≠ .adj z) → ∀ n ≥ 1, ∃ r, diff1 E n s y = .ok r := by
    intro y hy hya n hn
    obtain ⟨n, rfl⟩ := Nat.exists_eq_add_of_le' hn
    cases y with
    | zero => exact ⟨_, rfl⟩
    | sym a args =>
      simp only [diff1, mk_ok _ (wfd_one s)]
      split <;> exact ⟨_, rfl⟩
    | expl c a dag => simp only [diff1]; split <;> exact ⟨_, rfl⟩
    | adj z => exact absurd rfl (hya z)
    | deriv z d v =>
      simp only [diff1, mk_ok _ (wfd_one s), mk_ok _ (wfd_incr hy.2.1 s)]
      split
      · exact ⟨_, rfl⟩
      · split <;> exact ⟨_, rfl⟩
  cases x with
  | adj y =>
    cases y with
    | sym a args =>
      obtain ⟨m, rfl⟩ : ∃ m, n = m + 4 := ⟨n - 4, by omega⟩
      obtain ⟨r, hr⟩ := leaf (.sym a args) trivial (by simp) (m + 1) (by omega)
      have h2 : ∃ r, diff E (m + 3) (.sym a args) s 1 = .ok r := by
        by_cases hs : s ∈ freeArgs args
        · have ho : derivLoop (free E (m + 1)) (diff1 E (m + 1)) (.sym a args) (ordered [(s, 1)]) = .ok (some r) := by
            show derivLoop (free E (m + 1)) (diff1 E (m + 1)) (.sym a args) [(s, 1)] = _
            have hf : free E (m + 1) (.sym a args) = .ok (freeArgs args) := rfl
            have hr' : Nat.repeat (fun r => r >>= diff1 E (m + 1) s) 1 (.ok (.sym a args)) = .ok r := hr
            simp only [derivLoop, hf]
            show (if s ∈ freeArgs args then _ else _) = _
            rw [if_pos hs, hr']
            rfl
          refine ⟨r, ?_⟩
          show (if s ∈ freeArgs args then create E (m + 2) (.sym a args) [(s, 1)] [] else .ok .zero) = _
          rw [if_pos hs]
          simp only [create, ho]
          rfl
        · refine ⟨.zero, ?_⟩
          show (if s ∈ freeArgs args then _ else _) = _
          rw [if_neg hs]
      obtain ⟨z, hz⟩ := h2
      exact ⟨adjoint z, by simp only [diff1, hz]; rfl⟩
    | _ => exact hx.1.elim
  | zero => exact leaf _ hx.1 (by simp) n (by omega)
  | sym a args => exact leaf _ hx.1 (by simp) n (by omega)
  | expl c a dag => exact leaf _ hx.1 (by simp) n (by omega)
  | deriv y d v => exact leaf _ hx.1 (by simp) n (by omega)

theorem repeat_total (hE : E.Ok) (hF : Smooth F) {x : DX ι} {s : ι} (hx : Inv E s x) {n : ℕ} (hn : 5 ≤ n) (k : ℕ) :
    ∃ r, k.repeat (fun r => r >>= diff1 E n s) (.ok x) = .ok r := by
  induction k with
  | zero => exact ⟨_, rfl⟩
  | succ k ih =>
    obtain ⟨y, hy⟩ := ih
    have hi := (repeat_val hE hF (fun m _ y r hy hr => diff_val hE hF m 1 one_ne_zero y r hy hr) hx k hy).1
    obtain ⟨r, hr⟩ := diff1_total hi hn
    exact ⟨r, by show (Nat.repeat (fun r => r >>= diff1 E n s) k (.ok x) >>= diff1 E n s) = _; rw [hy]; exact hr⟩

/-- C88 (partial: as `C88_diff_partial`, and no evaluation point is a Python number): `diff` never raises an exception, for every sufficiently
large recursion limit. -/
theorem C88_diff_total_partial (hE : E.Ok) (hF : Smooth F) {x : DX ι} (hx : Regular x) (hd : NoDum E x) {s : ι} (hs : Simple s x) (hp : NoPy x)
    (k : ℕ) : ∃ N, ∀ n ≥ N, ∃ r, diff E n x s k = .ok r :=
  diff_total_of hx hp ⟨5, fun _ hn => repeat_total hE hF ⟨hx, hd, hs⟩ hn k⟩

/-- C88: the adjoint is the adjoint. -/
theorem C88_adjoint (hF : Smooth F) (x : DX ι) (ρ : ι → ℝ) : val F (adjoint x) ρ = star (val F x ρ) := congrFun (adjoint_val hF x) ρ

/-! ### evaluation -/

/-- C88: `evaluate_at(v)` of a derivative succeeds exactly if every parameter in `v` is one of the derivative (otherwise `ValueError`), and the
result is the derivative at the point that has the new values, the earlier ones for the other evaluated parameters, and is free otherwise. -/
theorem C88_evaluate (hF : Smooth F) {y : DX ι} {d : List (ι × ℕ)} {w v : List (ι × PV ι)} (hw : WFd d w) (hv : (v.map Prod.fst).Nodup) :
    ((∀ p ∈ v, p.1 ∈ d.map Prod.fst) → ∃ r, evaluateAt (.deriv y d w) v = .ok r ∧ ∀ ρ, val F r ρ =
      pds d (val F y) (fun i => match get v i with
        | some p => p.eval ρ
        | none => match get w i with
          | some p => p.eval ρ
          | none => ρ i)) ∧
    ((∃ p ∈ v, p.1 ∉ d.map Prod.fst) → evaluateAt (.deriv y d w) v = .error .valueError) := by
  constructor
  · intro h
    have hwf : WFd d (update w v) := by
      refine ⟨hw.1, hw.2.1, nodup_update hw.2.2.1 v, fun p hp => ?_⟩
      have : p.1 ∈ (update w v).map Prod.fst := List.mem_map.mpr ⟨p, hp, rfl⟩
      rcases (keys_update w v p.1).mp this with h1 | h1
      · obtain ⟨q, hq, hqe⟩ := List.mem_map.mp h1
        rw [← hqe]; exact hw.2.2.2 q hq
      · obtain ⟨q, hq, hqe⟩ := List.mem_map.mp h1
        rw [← hqe]; exact h q hq
    refine ⟨_, mk_ok y hwf, fun ρ => ?_⟩
    simp only [val, point_ordered hwf.2.2.1, pds_perm (val_smooth hF y) (ordered_perm d)]
    congr 1
    funext i
    unfold point
    rw [get_update w v hv]
    cases get v i with
    | none => cases get w i <;> rfl
    | some p => rfl
  · rintro ⟨p, hp, hpd⟩
    show mk y d (update w v) = _
    unfold mk
    rw [if_neg, if_pos]
    · rw [List.any_eq_true]
      have : p.1 ∈ (update w v).map Prod.fst := (keys_update w v p.1).mpr (Or.inr (List.mem_map.mpr ⟨p, hp, rfl⟩))
      obtain ⟨q, hq, hqe⟩ := List.mem_map.mp this
      refine ⟨q, hq, ?_⟩
      rw [hqe]; simpa using hpd
    · simp only [List.any_eq_true, decide_eq_true_eq, not_exists, not_and]
      exact fun p hp => hw.2.1 p hp

/-! ### the order of derivatives -/

theorem diff_sym {a : ℕ} {args : List (Sc ι)} {s : ι} (hz : ∀ e ∈ args, E.dz e s = true ↔ s ∉ e.free) (m : ℕ) :
    diff E (m + 3) (.sym a args) s 1 = .ok (if s ∈ freeArgs args then .deriv (.sym a args) [(s, 1)] [] else .zero) := by
  show (if s ∈ freeArgs args then create E (m + 2) (.sym a args) [(s, 1)] [] else .ok .zero) = _
  by_cases hs : s ∈ freeArgs args
  · have h1 : diff1 E (m + 1) s (.sym a args) = .ok (.deriv (.sym a args) [(s, 1)] []) := by
      simp only [diff1]
      rw [if_neg, mk_ok _ (wfd_one s)]
      · rfl
      · intro h
        obtain ⟨e, he, hse⟩ := freeArgs_mem.mp hs
        exact (hz e he).mp (List.all_eq_true.mp h e he) hse
    have ho : derivLoop (free E (m + 1)) (diff1 E (m + 1)) (.sym a args) (ordered [(s, 1)]) = .ok (some (.deriv (.sym a args) [(s, 1)] [])) := by
      show derivLoop (free E (m + 1)) (diff1 E (m + 1)) (.sym a args) [(s, 1)] = _
      have hf : free E (m + 1) (.sym a args) = .ok (freeArgs args) := rfl
      have hr' : Nat.repeat (fun r => r >>= diff1 E (m + 1) s) 1 (.ok (.sym a args)) = .ok (.deriv (.sym a args) [(s, 1)] []) := h1
      simp only [derivLoop, hf]
      show (if s ∈ freeArgs args then _ else _) = _
      rw [if_pos hs, hr']
      rfl
    rw [if_pos hs, if_pos hs]
    simp only [create, ho]
    rfl
  · rw [if_neg hs, if_neg hs]

theorem diff_deriv {a : ℕ} {args : List (Sc ι)} {d : List (ι × ℕ)} (hd : WFd d ([] : List (ι × PV ι))) (s : ι) (m : ℕ) :
    diff E (m + 4) (.deriv (.sym a args) d []) s 1 =
      .ok (if s ∈ freeArgs args then .deriv (.sym a args) (ordered (set d s ((get d s).getD 0 + 1))) [] else .zero) := by
  show (if s ∈ freeArgs args then create E (m + 3) (.deriv (.sym a args) d []) [(s, 1)] [] else .ok .zero) = _
  by_cases hs : s ∈ freeArgs args
  · have h1 : diff1 E (m + 2) s (.deriv (.sym a args) d []) = .ok (.deriv (.sym a args) (ordered (set d s ((get d s).getD 0 + 1))) []) := by
      simp only [diff1, List.map_nil, List.not_mem_nil, if_false, mk_ok _ (wfd_incr hd s)]
      rfl
    have ho : derivLoop (free E (m + 2)) (diff1 E (m + 2)) (.deriv (.sym a args) d []) (ordered [(s, 1)]) =
        .ok (some (.deriv (.sym a args) (ordered (set d s ((get d s).getD 0 + 1))) [])) := by
      show derivLoop (free E (m + 2)) (diff1 E (m + 2)) (.deriv (.sym a args) d []) [(s, 1)] = _
      have hf : free E (m + 2) (.deriv (.sym a args) d []) = .ok (freeArgs args) := rfl
      have hr' : Nat.repeat (fun r => r >>= diff1 E (m + 2) s) 1 (.ok (.deriv (.sym a args) d [])) =
        .ok (.deriv (.sym a args) (ordered (set d s ((get d s).getD 0 + 1))) []) := h1
      simp only [derivLoop, hf]
      show (if s ∈ freeArgs args then _ else _) = _
      rw [if_pos hs, hr']
      rfl
    rw [if_pos hs, if_pos hs]
    simp only [create, ho]
    rfl
  · rw [if_neg hs, if_neg hs]

theorem diff_zero (s : ι) (m : ℕ) : diff E (m + 2) (.zero : DX ι) s 1 = .ok .zero := by
  show (if s ∈ (∅ : Finset ι) then create E (m + 1) (.zero : DX ι) [(s, 1)] [] else .ok .zero) = _
  rw [if_neg (by simp)]

/-- C88: mixed derivatives are the same object, whatever the order of differentiation. -/
theorem C88_order {a : ℕ} {args : List (Sc ι)} {s t : ι} (hs : ∀ e ∈ args, E.dz e s = true ↔ s ∉ e.free) (ht : ∀ e ∈ args, E.dz e t = true ↔ t ∉ e.free)
    {n : ℕ} (hn : 4 ≤ n) :
    ∃ r, (diff E n (.sym a args) s 1 >>= fun y => diff E n y t 1) = .ok r ∧ (diff E n (.sym a args) t 1 >>= fun y => diff E n y s 1) = .ok r := by
  obtain ⟨m, rfl⟩ := Nat.exists_eq_add_of_le' hn
  rw [diff_sym (m := m + 1) hs, diff_sym (m := m + 1) ht]
  by_cases h1 : s ∈ freeArgs args
  · by_cases h2 : t ∈ freeArgs args
    · rw [if_pos h1, if_pos h2]
      refine ⟨_, diff_deriv (wfd_one s) t m, ?_⟩
      refine (diff_deriv (wfd_one t) s m).trans ?_
      rw [if_pos h1, if_pos h2]
      by_cases hst : s = t
      · subst hst; rfl
      · have hts : ¬ (t = s) := fun h => hst h.symm
        congr 2
        have e1 : set [(t, 1)] s ((get [(t, 1)] s).getD 0 + 1) = [(t, 1), (s, 1)] := by
          simp [set, get, hst, hts]
        have e2 : set [(s, 1)] t ((get [(s, 1)] t).getD 0 + 1) = [(s, 1), (t, 1)] := by
          simp [set, get, hst, hts]
        rw [e1, e2]
        exact ordered_eq (List.Perm.swap _ _ _) (by simp [hts])
    · rw [if_pos h1, if_neg h2]
      refine ⟨.zero, ?_, diff_zero (E := E) s (m + 2)⟩
      refine (diff_deriv (wfd_one s) t m).trans ?_
      rw [if_neg h2]
  · by_cases h2 : t ∈ freeArgs args
    · rw [if_neg h1, if_pos h2]
      refine ⟨.zero, diff_zero (E := E) t (m + 2), ?_⟩
      refine (diff_deriv (wfd_one t) s m).trans ?_
      rw [if_neg h1]
    · rw [if_neg h1, if_neg h2]
      exact ⟨.zero, diff_zero (E := E) t (m + 2), diff_zero (E := E) s (m + 2)⟩

/-! ### Taylor series -/

/-- what the loop of the series produces: zero, or a derivative of the symbol, also with respect to `s`, not evaluated -/
def Chain (a : ℕ) (args : List (Sc ι)) (s : ι) (x : DX ι) : Prop :=
  x = .zero ∨ ∃ d, x = .deriv (.sym a args) d [] ∧ WFd d ([] : List (ι × PV ι)) ∧ s ∈ d.map Prod.fst

theorem chain_free {a : ℕ} {args : List (Sc ι)} {s : ι} {x : DX ι} (h : x = .sym a args ∨ Chain a args s x) (m : ℕ) : ∃ S, free E (m + 2) x = .ok S := by
  rcases h with rfl | rfl | ⟨d, rfl, _, _⟩ <;> exact ⟨_, rfl⟩

theorem chain_diff1 {a : ℕ} {args : List (Sc ι)} {s : ι} {x r : DX ι} (h : x = .sym a args ∨ Chain a args s x) {n : ℕ} (hr : diff1 E n s x = .ok r) :
    Chain a args s r := by
  cases n with
  | zero => cases hr
  | succ n =>
    rcases h with rfl | rfl | ⟨d, rfl, hd, hs⟩
    · simp only [diff1] at hr
      split at hr
      · cases hr; exact Or.inl rfl
      · rw [mk_ok _ (wfd_one s)] at hr
        cases hr
        exact Or.inr ⟨_, rfl, wfd_ordered (wfd_one s), by rw [((ordered_perm _).map Prod.fst).mem_iff]; simp⟩
    · simp only [diff1] at hr; cases hr; exact Or.inl rfl
    · simp only [diff1, List.map_nil, List.not_mem_nil, if_false, mk_ok _ (wfd_incr hd s)] at hr
      cases hr
      refine Or.inr ⟨_, rfl, wfd_ordered (wfd_incr hd s), ?_⟩
      rw [((ordered_perm _).map Prod.fst).mem_iff, keys_set]
      rw [if_pos hs]
      exact hs

theorem chain_diff {a : ℕ} {args : List (Sc ι)} {s : ι} {x r : DX ι} (h : x = .sym a args ∨ Chain a args s x) {n : ℕ} (hr : diff E n x s 1 = .ok r) :
    Chain a args s r := by
  cases n with
  | zero => cases hr
  | succ n =>
    simp only [diff] at hr
    obtain ⟨f, hf, hr⟩ := Except.bind_ok hr
    split at hr
    · cases n with
      | zero => cases hr
      | succ n =>
        simp only [create] at hr
        obtain ⟨o, ho, hr⟩ := Except.bind_ok hr
        have ho' : derivLoop (free E n) (diff1 E n) x [(s, 1)] = .ok o := ho
        simp only [derivLoop] at ho'
        obtain ⟨f, hf, ho'⟩ := Except.bind_ok ho'
        split at ho'
        · obtain ⟨y, hy, ho'⟩ := Except.bind_ok ho'
          cases ho'
          cases hr
          exact chain_diff1 h hy
        · cases ho'; cases hr; exact Or.inl rfl
    · cases hr; exact Or.inl rfl

theorem chain_inv {a : ℕ} {args : List (Sc ι)} {s : ι} {x : DX ι} (h : x = .sym a args ∨ Chain a args s x)
    (hd : ∀ i ∈ freeArgs args, E.isDum i = false) : Inv E s x := by
  rcases h with rfl | rfl | ⟨d, rfl, hw, _⟩
  · exact ⟨trivial, hd, trivial⟩
  · exact ⟨trivial, by simp [NoDum, syms], trivial⟩
  · exact ⟨⟨trivial, hw, Or.inl rfl⟩, hd, by rintro ⟨p, hp, _⟩; exact absurd hp List.not_mem_nil⟩

theorem subs_eval (e : Sc ι) (m : List (ι × PV ι)) (ρ : ι → ℝ) : (e.subs m).eval ρ = e.eval (point m ρ) := by
  induction e with
  | num q => rfl
  | sym i =>
    simp only [Sc.subs, Sc.eval, point]
    cases get m i with
    | none => rfl
    | some p => cases p <;> rfl
  | add a b ha hb => simp only [Sc.subs, Sc.eval, ha, hb]
  | mul a b ha hb => simp only [Sc.subs, Sc.eval, ha, hb]

theorem point_single (s : ι) (v : PV ι) (ρ : ι → ℝ) : point [(s, v)] ρ = Function.update ρ s (v.eval ρ) := by
  funext i
  unfold point
  rw [get_cons]
  by_cases h : s = i
  · subst h; simp
  · have h' : ¬ (i = s) := fun e => h e.symm
    simp [h, Function.update_of_ne h', get]

theorem evalOrSubst_val (hF : Smooth F) {a : ℕ} {args : List (Sc ι)} {s : ι} {x : DX ι} (h : x = .sym a args ∨ Chain a args s x) (v : PV ι) (m : ℕ) :
    ∃ r, evalOrSubst E (m + 1) x s v = .ok r ∧ ∀ ρ, val F r ρ = val F x (Function.update ρ s (v.eval ρ)) := by
  rcases h with rfl | rfl | ⟨d, rfl, hw, hs⟩
  · refine ⟨_, rfl, fun ρ => ?_⟩
    rw [← point_single]
    simp only [val, List.map_map]
    congr 1
    exact List.map_congr_left fun e _ => subs_eval e _ ρ
  · exact ⟨_, rfl, fun ρ => rfl⟩
  · obtain ⟨r, hr, hv⟩ := (C88_evaluate hF (y := .sym a args) (v := [(s, v)]) hw (by simp)).1 (by simpa using hs)
    refine ⟨r, ?_, fun ρ => ?_⟩
    · simp only [evalOrSubst, hr]
    · rw [hv ρ]
      simp only [val, point_nil, id]
      rw [← point_single]
      rfl

theorem taylorLoop_val (hE : E.Ok) (hF : Smooth F) {a : ℕ} {args : List (Sc ι)} (hd : ∀ i ∈ freeArgs args, E.isDum i = false) {s : ι} (v : PV ι)
    {n : ℕ} (hn : 8 ≤ n) (g : (ι → ℝ) → V) : ∀ (m k : ℕ) (x : DX ι), (x = .sym a args ∨ Chain a args s x) → val F x = (pd s)^[k] g →
    ∃ l, taylorLoop E n s v m (k + 1) x = .ok l ∧ l.map Prod.fst = List.range' (k + 1) m ∧
      ∀ p ∈ l, ∀ ρ, val F p.2 ρ = (pd s)^[p.1] g (Function.update ρ s (v.eval ρ)) := by
  obtain ⟨n, rfl⟩ : ∃ j, n = j + 8 := ⟨n - 8, by omega⟩
  intro m
  induction m with
  | zero => intro k x _ _; exact ⟨[], rfl, rfl, fun p hp => absurd hp List.not_mem_nil⟩
  | succ m ih =>
    intro k x hx hval
    simp only [taylorLoop]
    split
    · rename_i h0
      subst h0
      have h00 : (pd s)^[k + 1] g = 0 := by
        rw [Function.iterate_succ_apply', ← hval]
        exact pd_zero s
      obtain ⟨l, hl, h1, h2⟩ := ih (k + 1) .zero hx (by rw [h00]; rfl)
      refine ⟨(k + 1, .zero) :: l, by rw [hl]; rfl, by simp [h1, List.range'_succ], fun p hp => ?_⟩
      rcases List.mem_cons.mp hp with rfl | hp
      · intro ρ; rw [h00]; rfl
      · exact h2 p hp
    · obtain ⟨y, hy⟩ : ∃ r, diff E (n + 8) x s 1 = .ok r :=
        diff_total_at (m := n + 6) (chain_free hx (n + 5)) (chain_free hx (n + 4)) (repeat_total hE hF (chain_inv hx hd) (by omega) 1)
      have hyc := chain_diff hx hy
      have hyv : val F y = (pd s)^[k + 1] g := by
        rw [(diff_val hE hF _ 1 one_ne_zero x y (chain_inv hx hd) hy).2, hval, ← Function.iterate_add_apply, Nat.add_comm]
      obtain ⟨z, hz, hzv⟩ := evalOrSubst_val (E := E) hF (Or.inr hyc) v (n + 7)
      obtain ⟨l, hl, h1, h2⟩ := ih (k + 1) y (Or.inr hyc) hyv
      refine ⟨(k + 1, z) :: l, by rw [hy]; simp only [bind, Except.bind, hz, hl], by simp [h1, List.range'_succ], fun p hp => ?_⟩
      rcases List.mem_cons.mp hp with rfl | hp
      · intro ρ; rw [hzv ρ, hyv]
      · exact h2 p hp

/-- C88: `series_expand(s, about=v, order)` of a symbol never fails and returns `order + 1` coefficients; the `k`-th is the `k`-th derivative at
the given point divided by `k!` (the entry `(k, z)` stands for `z / k!`). -/
theorem C88_series (hE : E.Ok) (hF : Smooth F) (a : ℕ) {args : List (Sc ι)} (hd : ∀ i ∈ freeArgs args, E.isDum i = false) (s : ι) (v : PV ι) (order : ℕ)
    {n : ℕ} (hn : 8 ≤ n) : ∃ l, series E n a args s v order = .ok l ∧ l.map Prod.fst = List.range (order + 1) ∧
      ∀ p ∈ l, ∀ ρ, val F p.2 ρ = (pd s)^[p.1] (val F (.sym a args)) (Function.update ρ s (v.eval ρ)) := by
  unfold series
  split
  · rename_i h0
    subst h0
    refine ⟨_, rfl, ?_, fun p hp => ?_⟩
    · simp [List.range_succ_eq_map, Function.comp_def]
    · have hz : pd s (val F (.sym a [] : DX ι)) = 0 := pd_const_in fun _ _ => rfl
      rcases List.mem_cons.mp hp with rfl | hp
      · intro ρ; rfl
      · obtain ⟨k, _, rfl⟩ := List.mem_map.mp hp
        intro ρ
        rw [pdn_of_pd_zero hz (Nat.succ_ne_zero k)]
        rfl
  · obtain ⟨m, rfl⟩ : ∃ m, n = m + 1 := ⟨n - 1, by omega⟩
    obtain ⟨z, hz, hzv⟩ := evalOrSubst_val (E := E) (a := a) (args := args) (s := s) hF (Or.inl rfl) v m
    obtain ⟨l, hl, h1, h2⟩ := taylorLoop_val hE hF (a := a) hd v hn (val F (.sym a args)) order 0 (.sym a args) (Or.inl rfl) rfl
    have hl' : taylorLoop E (m + 1) s v order 1 (.sym a args) = .ok l := hl
    refine ⟨(0, z) :: l, by rw [hz]; simp only [bind, Except.bind, hl'], ?_, fun p hp => ?_⟩
    · rw [List.map_cons, h1, List.range_eq_range', List.range'_succ]
    · rcases List.mem_cons.mp hp with rfl | hp
      · intro ρ; rw [hzv ρ]; rfl
      · exact h2 p hp

theorem sum_range_list {M : Type} [AddCommMonoid M] (g : ℕ → M) (n : ℕ) : ((List.range n).map g).sum = ∑ k ∈ Finset.range n, g k := by
  induction n with
  | zero => rfl
  | succ n ih => rw [List.range_succ, List.map_append, List.sum_append, Finset.sum_range_succ, ih]; simp

theorem iteratedDeriv_pd (g : (ι → ℝ) → V) (s : ι) (ρ : ι → ℝ) (k : ℕ) :
    iteratedDeriv k (fun u => g (Function.update ρ s u)) = fun u => (pd s)^[k] g (Function.update ρ s u) := by
  induction k with
  | zero => funext u; simp
  | succ k ih =>
    funext u
    rw [iteratedDeriv_succ, ih, Function.iterate_succ_apply']
    simp only [pd, Function.update_idem, Function.update_self]

/-- C88: the series approximates the operator: `x(s) = sum_{k <= order} c_k (s - v)^k + O((s - v)^(order+1))`, as the documentation says
(the parameters in the expansion point have fixed values). -/
theorem C88_series_remainder (hE : E.Ok) (hF : Smooth F) (a : ℕ) {args : List (Sc ι)} (hd : ∀ i ∈ freeArgs args, E.isDum i = false) (s : ι) (v : PV ι)
    (order : ℕ) {n : ℕ} (hn : 8 ≤ n) {l : List (ℕ × DX ι)} (hl : series E n a args s v order = .ok l) (ρ : ι → ℝ) :
    (fun u => val F (.sym a args) (Function.update ρ s u) -
        (l.map (fun p => ((u - v.eval ρ) ^ p.1 / (p.1.factorial : ℝ)) • val F p.2 ρ)).sum) =O[nhds (v.eval ρ)]
      fun u => (u - v.eval ρ) ^ (order + 1) := by
  obtain ⟨l', hl', h1, h2⟩ := C88_series hE hF a hd s v order hn
  rw [hl] at hl'
  cases hl'
  set f : ℝ → V := fun u => val F (.sym a args) (Function.update ρ s u) with hf
  have hsm : ContDiff ℝ ∞ f := by
    have hu : ContDiff ℝ ∞ (fun u : ℝ => Function.update ρ s u) := by
      rw [contDiff_pi]
      intro i
      by_cases hi : i = s
      · subst hi; simpa using contDiff_fun_id
      · simpa [Function.update_of_ne hi] using contDiff_const
    exact (val_smooth hF (.sym a args)).comp hu
  have ht := taylor_isLittleO_univ (f := f) (x₀ := v.eval ρ) (n := order + 1) (hsm.of_le (by exact_mod_cast le_top))
  have hsum : ∀ u, (l.map (fun p => ((u - v.eval ρ) ^ p.1 / (p.1.factorial : ℝ)) • val F p.2 ρ)).sum = taylorWithinEval f order Set.univ (v.eval ρ) u := by
    intro u
    rw [taylor_within_apply]
    have h3 : l.map (fun p => ((u - v.eval ρ) ^ p.1 / (p.1.factorial : ℝ)) • val F p.2 ρ) =
        (l.map Prod.fst).map (fun k => (((k.factorial : ℝ)⁻¹ * (u - v.eval ρ) ^ k) • iteratedDerivWithin k f Set.univ (v.eval ρ))) := by
      rw [List.map_map]
      refine List.map_congr_left fun p hp => ?_
      simp only [Function.comp, iteratedDerivWithin_univ, hf, iteratedDeriv_pd, h2 p hp ρ]
      rw [div_eq_inv_mul]
    rw [h3, h1]
    exact sum_range_list _ _
  have hlast : (fun u : ℝ => (((order + 1 : ℝ) * (order.factorial : ℝ))⁻¹ * (u - v.eval ρ) ^ (order + 1)) •
      iteratedDerivWithin (order + 1) f Set.univ (v.eval ρ)) =O[nhds (v.eval ρ)] fun u => (u - v.eval ρ) ^ (order + 1) := by
    refine Asymptotics.IsBigO.of_bound (‖((order + 1 : ℝ) * (order.factorial : ℝ))⁻¹‖ * ‖iteratedDerivWithin (order + 1) f Set.univ (v.eval ρ)‖)
      (Filter.Eventually.of_forall fun u => ?_)
    rw [norm_smul, norm_mul]
    exact le_of_eq (by ring)
  have := ht.isBigO.add hlast
  refine this.congr_left fun u => ?_
  rw [hsum u, taylorWithinEval_succ]
  abel

end values

end QNET.Deriv
