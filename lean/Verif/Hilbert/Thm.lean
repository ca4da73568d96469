import Verif.Hilbert.Lemmas
import Mathlib.Algebra.BigOperators.Group.Finset.Basic

/-!
# C25, C26: Hilbert spaces as sets of local factors
-/

namespace QNET.Hilbert

open QNET.Order QNET.Perm

/-! ### C25 -/

/-- The tensor product of sets of factors; the full space (`none`) absorbs everything. -/
def joinAll : List (Option (Finset Loc)) → Option (Finset Loc)
  | [] => some ∅
  | none :: _ => none
  | some s :: l => (joinAll l).map (s ∪ ·)

theorem joinAll_none {l : List (Option (Finset Loc))} (h : none ∈ l) : joinAll l = none := by
  induction l with
  | nil => simp at h
  | cons a l ih =>
    cases a with
    | none => rfl
    | some s =>
      have : none ∈ l := by simpa using h
      simp [joinAll, ih this]

theorem joinAll_some {ops : List Space} (h : ∀ o ∈ ops, o ≠ .full) :
    ∃ t, joinAll (ops.map factors) = some t ∧ ∀ l, l ∈ t ↔ ∃ o ∈ ops, l ∈ fset o := by
  induction ops with
  | nil => exact ⟨∅, rfl, by simp⟩
  | cons o ops ih =>
    obtain ⟨t, e, ht⟩ := ih (fun o ho => h o (by simp [ho]))
    refine ⟨fset o ∪ t, ?_, ?_⟩
    · rw [List.map_cons, fset_of (h o (by simp)), joinAll, e]; rfl
    · intro l; simp [ht]

/-- C25: the tensor product of any spaces always exists, and its local factors are the union of the local factors of the operands
(the full space if one of the operands is the full space). -/
theorem C25_factors (so : SetOrder Space) (ops : List Space) (h : ∀ o ∈ ops, Reachable o) :
    ∃ s, create so ops = .ok s ∧ Reachable s ∧ factors s = joinAll (ops.map factors) := by
  by_cases hf : Space.full ∈ ops
  · refine ⟨.full, create_full so ops hf, .full, ?_⟩
    rw [joinAll_none (List.mem_map.mpr ⟨_, hf, rfl⟩)]; rfl
  · have hf' : ∀ o ∈ ops, o ≠ .full := fun o ho e => hf (e ▸ ho)
    obtain ⟨s, e1, -, e3, e4⟩ := create_spec so ops (fun o ho => (h o ho).wf) hf'
    obtain ⟨t, e5, e6⟩ := joinAll_some hf'
    refine ⟨s, e1, .create h e1, ?_⟩
    rw [fset_of e3, e5]
    congr 1
    ext l; rw [e4, e6]

/-- C25: a space is determined by its local factors. -/
theorem C25_canonical {a b : Space} (ha : Reachable a) (hb : Reachable b) (h : factors a = factors b) : a = b := wf_unique ha.wf hb.wf h

/-- C25: neither the order and multiplicity of the operands nor the order in which Python iterates over sets matters. -/
theorem C25_order_irrelevant (so so' : SetOrder Space) {ops ops' : List Space} (h : ∀ o ∈ ops, Reachable o)
    (hs : ∀ o, o ∈ ops ↔ o ∈ ops') : create so ops = create so' ops' := by
  have h' : ∀ o ∈ ops', Reachable o := fun o ho => h o ((hs o).mpr ho)
  by_cases hf : Space.full ∈ ops
  · rw [create_full so ops hf, create_full so' ops' ((hs _).mp hf)]
  · have hf1 : ∀ o ∈ ops, o ≠ .full := fun o ho e => hf (e ▸ ho)
    have hf2 : ∀ o ∈ ops', o ≠ .full := fun o ho e => hf (e ▸ (hs o).mpr ho)
    obtain ⟨s, e1, w1, n1, m1⟩ := create_spec so ops (fun o ho => (h o ho).wf) hf1
    obtain ⟨s', e2, w2, n2, m2⟩ := create_spec so' ops' (fun o ho => (h' o ho).wf) hf2
    rw [e1, e2]
    congr 1
    apply wf_unique w1 w2
    rw [fset_of n1, fset_of n2]
    congr 1
    ext l
    rw [m1, m2]
    exact ⟨fun ⟨o, ho, hl⟩ => ⟨o, (hs o).mp ho, hl⟩, fun ⟨o, ho, hl⟩ => ⟨o, (hs o).mpr ho, hl⟩⟩

/-- C25: commutativity. -/
theorem C25_comm (so so' : SetOrder Space) {a b : Space} (ha : Reachable a) (hb : Reachable b) : tensor so a b = tensor so' b a :=
  C25_order_irrelevant so so' (by simp [ha, hb]) (by simp [or_comm])

/-- C25: associativity; nested products are flattened. -/
theorem C25_assoc (so : SetOrder Space) {a b c : Space} (ha : Reachable a) (hb : Reachable b) (hc : Reachable c) :
    (do tensor so (← tensor so a b) c) = create so [a, b, c] ∧ (do tensor so a (← tensor so b c)) = create so [a, b, c] := by
  obtain ⟨s, e, r, f⟩ := C25_factors so [a, b] (by simp [ha, hb])
  obtain ⟨s', e', r', f'⟩ := C25_factors so [b, c] (by simp [hb, hc])
  obtain ⟨t, k1, k2, k3⟩ := C25_factors so [s, c] (by simp [r, hc])
  obtain ⟨t', l1, l2, l3⟩ := C25_factors so [a, s'] (by simp [ha, r'])
  obtain ⟨u, m1, m2, m3⟩ := C25_factors so [a, b, c] (by simp [ha, hb, hc])
  have j2 : ∀ x y : Option (Finset Loc), joinAll [x, y] = match x, y with | some x, some y => some (x ∪ y) | _, _ => none := by
    intro x y; cases x <;> cases y <;> simp [joinAll]
  have j3 : ∀ x y z : Option (Finset Loc), joinAll [x, y, z] =
      match x, y, z with | some x, some y, some z => some (x ∪ (y ∪ z)) | _, _, _ => none := by
    intro x y z; cases x <;> cases y <;> cases z <;> simp [joinAll]
  simp only [List.map_cons, List.map_nil, j2, j3] at f f' k3 l3 m3
  constructor
  · have : tensor so a b = .ok s := e
    rw [this]
    show tensor so s c = _
    rw [tensor, k1, m1]
    congr 1
    apply C25_canonical k2 m2
    rw [k3, m3, f]
    cases factors a <;> cases factors b <;> cases factors c <;> simp [Finset.union_assoc]
  · have : tensor so b c = .ok s' := e'
    rw [this]
    show tensor so a s' = _
    rw [tensor, l1, m1]
    congr 1
    apply C25_canonical l2 m2
    rw [l3, m3, f']
    cases factors a <;> cases factors b <;> cases factors c <;> simp

/-- C25: idempotence, the trivial space is neutral, the full space absorbing. -/
theorem C25_units (so : SetOrder Space) {a : Space} (ha : Reachable a) :
    tensor so a a = .ok a ∧ tensor so a .trivial = .ok a ∧ tensor so .trivial a = .ok a ∧
    tensor so a .full = .ok .full ∧ tensor so .full a = .ok .full ∧ create so [a] = .ok a ∧ create so [] = .ok .trivial := by
  have key : ∀ b, Reachable b → (factors b = some ∅ ∨ b = a) → tensor so a b = .ok a ∧ tensor so b a = .ok a := by
    intro b hb hfb
    obtain ⟨s, e, r, f⟩ := C25_factors so [a, b] (by simp [ha, hb])
    obtain ⟨s', e', r', f'⟩ := C25_factors so [b, a] (by simp [ha, hb])
    refine ⟨?_, ?_⟩
    · rw [tensor, e]; congr 1
      apply C25_canonical r ha
      rw [f]
      rcases hfb with h | rfl
      · cases hx : factors a <;> simp [joinAll, h, hx]
      · cases hx : factors b <;> simp [joinAll, hx]
    · rw [tensor, e']; congr 1
      apply C25_canonical r' ha
      rw [f']
      rcases hfb with h | rfl
      · cases hx : factors a <;> simp [joinAll, h, hx]
      · cases hx : factors b <;> simp [joinAll, hx]
  refine ⟨(key a ha (Or.inr rfl)).1, (key _ .trivial (Or.inl rfl)).1, (key _ .trivial (Or.inl rfl)).2, create_full so _ (by simp),
    create_full so _ (by simp), ?_, rfl⟩
  obtain ⟨s, e, r, f⟩ := C25_factors so [a] (by simp [ha])
  rw [e]; congr 1
  apply C25_canonical r ha
  rw [f]
  cases hx : factors a <;> simp [joinAll, hx]

theorem foldlM_dim : ∀ (ls : List Loc) (acc : ℕ), ls.foldlM (fun acc l => match l.dim with
      | some d => (.ok (acc * d) : Res ℕ)
      | none => .error .basisNotSet) acc =
    if ∃ l ∈ ls, l.dim = none then .error .basisNotSet else .ok (acc * (ls.map (fun l => l.dim.getD 1)).prod) := by
  intro ls
  induction ls with
  | nil => intro acc; simp; rfl
  | cons l ls ih =>
    intro acc
    rw [List.foldlM_cons]
    cases hd : l.dim with
    | none => simp [hd]; rfl
    | some d =>
      show List.foldlM _ (acc * d) ls = _
      rw [ih]
      simp [hd, mul_assoc]

/-- C25: the dimension is the product of the dimensions over the distinct local factors; it is undefined (`BasisNotSetError`) iff the
space is the full space or one of the factors has no basis. -/
theorem C25_dimension {a : Space} (ha : Reachable a) :
    dimension a = match factors a with
      | none => .error .basisNotSet
      | some s => if ∃ l ∈ s, l.dim = none then .error .basisNotSet else .ok (∏ l ∈ s, l.dim.getD 1) := by
  have hw := ha.wf
  cases a with
  | trivial => simp [dimension, factors]
  | full => rfl
  | loc l => cases hd : l.dim <;> simp [dimension, factors, hd]
  | prod ls =>
    have hn := Space.WF.nodup hw
    have e := foldlM_dim ls 1
    simp only [one_mul] at e
    simp only [dimension, factors, List.mem_toFinset]
    rw [List.prod_toFinset _ hn]
    exact e

/-! ### C26 -/

/-- `a` is contained in `b`, as sets of degrees of freedom -/
def Sub : Option (Finset Loc) → Option (Finset Loc) → Prop
  | _, none => True
  | none, some _ => False
  | some s, some t => s ⊆ t

/-- C26: `<=` is inclusion and `<` strict inclusion of the sets of local factors. -/
theorem C26_order {a b : Space} (ha : Reachable a) (hb : Reachable b) :
    (le a b = true ↔ Sub (factors a) (factors b)) ∧ (lt a b = true ↔ Sub (factors a) (factors b) ∧ factors a ≠ factors b) := by
  have hlt : lt a b = true ↔ Sub (factors a) (factors b) ∧ factors a ≠ factors b := by
    have wa := ha.wf
    have wb := hb.wf
    cases a with
    | trivial =>
      have : factors Space.trivial = factors b ↔ b = .trivial :=
        ⟨fun h => (C25_canonical ha hb h).symm, fun h => by rw [h]⟩
      rw [ne_eq, this]
      cases b <;> simp [lt, Sub, factors]
    | full => cases b <;> simp [lt, Sub, factors]
    | loc l =>
      cases b with
      | trivial => simp [lt, Sub, factors]
      | full => simp [lt, Sub, factors]
      | loc m => simp [lt, Sub, factors]
      | prod ms =>
        have hne : factors (Space.loc l) ≠ factors (.prod ms) := fun h => by
          have := C25_canonical ha hb h; cases this
        simp only [hne, ne_eq, not_false_eq_true, and_true]
        simp [lt, Sub, factors]
    | prod ls =>
      cases b with
      | trivial =>
        have hne : factors (.prod ls) ≠ factors Space.trivial := fun h => by
          have := C25_canonical ha hb h; cases this
        simp only [lt, Sub, factors, Bool.false_eq_true, false_iff, not_and]
        intro h
        exact absurd (congrArg some (Finset.subset_empty.mp h)) hne
      | full => simp [lt, Sub, factors]
      | loc m =>
        have hne : factors (.prod ls) ≠ factors (Space.loc m) := fun h => by
          have := C25_canonical ha hb h; cases this
        simp only [lt, Sub, factors, Bool.false_eq_true, false_iff, not_and]
        intro h
        have h1 := Finset.card_le_card h
        rw [List.toFinset_card_of_nodup (Space.WF.nodup wa)] at h1
        have := wa.1
        simp at h1; omega
      | prod ms =>
        simp only [lt, Sub, factors, Bool.and_eq_true, List.all_eq_true, List.any_eq_true, List.contains_iff_mem, Bool.not_eq_true',
          ne_eq, Option.some.injEq]
        constructor
        · rintro ⟨h1, m, hm, hm'⟩
          refine ⟨fun x hx => List.mem_toFinset.mpr (h1 x (List.mem_toFinset.mp hx)), fun e => ?_⟩
          have : m ∈ ls := by rw [← List.mem_toFinset, e, List.mem_toFinset]; exact hm
          have := List.contains_iff_mem.mpr this
          rw [hm'] at this; cases this
        · rintro ⟨h1, h2⟩
          refine ⟨fun x hx => List.mem_toFinset.mp (h1 (List.mem_toFinset.mpr hx)), ?_⟩
          by_contra hc
          push_neg at hc
          apply h2
          apply Finset.Subset.antisymm h1
          intro m hm
          have := hc m (List.mem_toFinset.mp hm)
          simpa using this
  refine ⟨?_, hlt⟩
  unfold le
  simp only [Bool.or_eq_true, decide_eq_true_eq, hlt]
  constructor
  · rintro (rfl | h)
    · cases factors a <;> simp [Sub]
    · exact h.1
  · intro h
    by_cases he : factors a = factors b
    · exact Or.inl (C25_canonical ha hb he)
    · exact Or.inr ⟨h, he⟩

/-- the intersection of sets of factors -/
def meet : Option (Finset Loc) → Option (Finset Loc) → Option (Finset Loc)
  | none, t => t
  | s, none => s
  | some s, some t => some (s ∩ t)

theorem create_locs (so : SetOrder Space) (sl : SetOrder Loc) (ls : List Loc) (h : ∀ l ∈ ls, l.WF) :
    ∃ s, create so ((sl.iter ls).map .loc) = .ok s ∧ s.WF ∧ factors s = some ls.toFinset := by
  have hm : ∀ l, l ∈ sl.iter ls ↔ l ∈ ls := fun l => by rw [(sl.perm ls).mem_iff, List.mem_dedup]
  obtain ⟨s, e1, e2, e3, e4⟩ := create_spec so ((sl.iter ls).map .loc)
    (by intro o ho; obtain ⟨l, hl, rfl⟩ := List.mem_map.mp ho; exact h l ((hm l).mp hl))
    (by intro o ho; obtain ⟨l, hl, rfl⟩ := List.mem_map.mp ho; simp)
  refine ⟨s, e1, e2, ?_⟩
  rw [fset_of e3]
  congr 1
  ext l
  rw [e4, List.mem_toFinset]
  constructor
  · rintro ⟨o, ho, hl⟩
    obtain ⟨m, hm', rfl⟩ := List.mem_map.mp ho
    simp [fset, factors] at hl
    rw [hl]; exact (hm m).mp hm'
  · intro hl
    exact ⟨.loc l, List.mem_map.mpr ⟨l, (hm l).mpr hl, rfl⟩, by simp [fset, factors]⟩

theorem localFactors_ok {b : Space} (h : b ≠ .full) : ∃ f, localFactors b = .ok f ∧ ∀ l, l ∈ f ↔ l ∈ fset b := by
  cases b with
  | trivial => exact ⟨[], rfl, by simp [fset, factors]⟩
  | full => exact absurd rfl h
  | loc l => exact ⟨[l], rfl, by simp [fset, factors]⟩
  | prod ls => exact ⟨ls, rfl, by simp [fset, factors]⟩

/-- C26: whenever `a & b` has a value, its local factors are those common to `a` and `b`. It has a value except for a local space
intersected with the full space, which raises `AlgebraError` (`C26_local_and_full`). -/
theorem C26_intersect (so : SetOrder Space) (sl : SetOrder Loc) {a b : Space} (ha : Reachable a) (hb : Reachable b) :
    (∀ s, intersect so sl a b = .ok s → s.WF ∧ factors s = meet (factors a) (factors b)) ∧
    ((b = .full → ∀ l, a ≠ .loc l) → ∃ s, intersect so sl a b = .ok s) := by
  have wa := ha.wf
  have wb := hb.wf
  have key : (b = .full → ∀ l, a ≠ .loc l) → ∃ s, intersect so sl a b = .ok s ∧ s.WF ∧ factors s = meet (factors a) (factors b) := by
    intro hx
    cases a with
    | trivial => exact ⟨_, rfl, trivial, by cases b <;> simp [factors, meet]⟩
    | full => exact ⟨_, rfl, wb, rfl⟩
    | loc l =>
      have hbf : b ≠ .full := fun e => hx e l rfl
      obtain ⟨f, e, hf⟩ := localFactors_ok hbf
      refine ⟨_, by rw [intersect, e]; rfl, ?_⟩
      rw [fset_of hbf]
      by_cases hl : l ∈ f
      · rw [if_pos (by simpa using hl)]
        refine ⟨wa, ?_⟩
        simp only [factors, meet]
        rw [Finset.singleton_inter_of_mem ((hf l).mp hl)]
      · rw [if_neg (by simpa using hl)]
        refine ⟨trivial, ?_⟩
        simp only [factors, meet]
        rw [Finset.singleton_inter_of_notMem (fun h => hl ((hf l).mpr h))]
    | prod ls =>
      cases b with
      | trivial => exact ⟨_, rfl, trivial, by simp [factors, meet]⟩
      | full => exact ⟨_, rfl, wa, rfl⟩
      | loc m =>
        obtain ⟨s, e1, e2, e3⟩ := create_locs so sl (ls.filter (fun l => l = m)) (fun l hl => wa.2.1 l (List.mem_filter.mp hl).1)
        refine ⟨s, e1, e2, ?_⟩
        rw [e3]; simp only [factors, meet]; congr 1; ext l; simp
      | prod ms =>
        obtain ⟨s, e1, e2, e3⟩ := create_locs so sl (ls.filter (fun l => ms.contains l)) (fun l hl => wa.2.1 l (List.mem_filter.mp hl).1)
        refine ⟨s, e1, e2, ?_⟩
        rw [e3]; simp only [factors, meet]; congr 1; ext l; simp
  refine ⟨fun s hs => ?_, fun hx => ?_⟩
  · by_cases hx : b = .full → ∀ l, a ≠ .loc l
    · obtain ⟨s', e, h1, h2⟩ := key hx
      rw [hs] at e; injection e with e; subst e; exact ⟨h1, h2⟩
    · push_neg at hx
      obtain ⟨rfl, l, rfl⟩ := hx
      cases hs
  · obtain ⟨s, e, -⟩ := key hx; exact ⟨s, e⟩

/-- C26: intersecting a local space with the full space raises an error (the other way around it does not). -/
theorem C26_local_and_full (so : SetOrder Space) (sl : SetOrder Loc) (l : Loc) :
    intersect so sl (.loc l) .full = .error .algebraError ∧ intersect so sl .full (.loc l) = .ok (.loc l) := ⟨rfl, rfl⟩

/-- C26: `isdisjoint` is disjointness of the sets of local factors, for spaces other than the full space. The full space is never
disjoint from another space; `FullSpace.isdisjoint(other)` raises `AlgebraError`. -/
theorem C26_disjoint (a b : Space) (ha : a ≠ .full) (hb : b ≠ .full) :
    ∃ r, isDisjoint a b = .ok r ∧ (r = true ↔ Disjoint (fset a) (fset b)) := by
  obtain ⟨f, e, hf⟩ := localFactors_ok ha
  obtain ⟨g, e', hg⟩ := localFactors_ok hb
  refine ⟨_, by rw [isDisjoint, if_neg hb, e, e']; rfl, ?_⟩
  rw [List.all_eq_true, Finset.disjoint_left]
  constructor
  · intro h l hl hl'
    have := h l ((hf l).mpr hl)
    have h2 := (hg l).mpr hl'
    simp [h2] at this
  · intro h l hl
    have := h ((hf l).mp hl)
    simp only [Bool.not_eq_true', List.contains_eq_mem, decide_eq_false_iff_not]
    exact fun hc => this ((hg l).mp hc)

theorem C26_disjoint_full (a : Space) : isDisjoint a .full = .ok false ∧
    (a ≠ .full → isDisjoint .full a = .error .algebraError) := by
  refine ⟨by simp [isDisjoint], fun h => ?_⟩
  rw [isDisjoint, if_neg h]; rfl

/-- C26 for `/`: `a.remove(b)` has the factors of `a` that are not factors of `b`, unless `a` is a local space and `b` a product
containing it (or the full space): then `a` is returned unchanged (`C26_remove_refuted`). Missing: that case. -/
theorem C26_remove_partial (so : SetOrder Space) (sl : SetOrder Loc) {a b : Space} (ha : Reachable a) (haf : a ≠ .full)
    (hx : ∀ l, a = .loc l → b ≠ .full ∧ ∀ ms, b = .prod ms → l ∉ ms) :
    ∃ s, remove so sl a b = .ok s ∧ s.WF ∧ factors s = some (match factors b with | none => ∅ | some t => fset a \ t) := by
  have wa := ha.wf
  cases a with
  | trivial => exact ⟨_, rfl, trivial, by cases b <;> simp [factors, fset]⟩
  | full => exact absurd rfl haf
  | loc l =>
    refine ⟨_, rfl, ?_⟩
    cases b with
    | trivial => simp [factors, fset]; exact wa
    | full => exact absurd rfl (hx l rfl).1
    | loc m =>
      by_cases h : l = m
      · subst h; simp [factors, fset]; trivial
      · have h' : ¬ m = l := fun e => h e.symm
        simp only [factors, fset, Space.loc.injEq, h', if_false, Option.getD, Option.some.injEq]
        exact ⟨wa, (Finset.sdiff_eq_self_of_disjoint (by simpa using h)).symm⟩
    | prod ms =>
      have := (hx l rfl).2 ms rfl
      simp only [factors, fset, reduceCtorEq, if_false, Option.getD, Option.some.injEq]
      exact ⟨wa, (Finset.sdiff_eq_self_of_disjoint (by simpa using this)).symm⟩
  | prod ls =>
    cases b with
    | trivial => exact ⟨_, rfl, wa, by simp [factors, fset]⟩
    | full => exact ⟨_, rfl, trivial, rfl⟩
    | loc m =>
      obtain ⟨s, e1, e2, e3⟩ := create_locs so sl (ls.filter (fun l => l ≠ m)) (fun l hl => wa.2.1 l (List.mem_filter.mp hl).1)
      refine ⟨s, e1, e2, ?_⟩
      rw [e3]; simp only [factors, fset, Option.getD]; congr 1; ext l; simp
    | prod ms =>
      obtain ⟨s, e1, e2, e3⟩ := create_locs so sl (ls.filter (fun l => !ms.contains l)) (fun l hl => wa.2.1 l (List.mem_filter.mp hl).1)
      refine ⟨s, e1, e2, ?_⟩
      rw [e3]; simp only [factors, fset, Option.getD]; congr 1; ext l; simp

/-- two concrete local spaces, a product of them, and a set order, used as witnesses and examples -/
def l1 : Loc := ⟨['1'], none, none, [], none⟩
def l2 : Loc := ⟨['2'], some [['g'], ['e']], some 2, [], none⟩
def l0 : Loc := ⟨['9'], some [['0'], ['1'], ['2']], some 3, [], some 0⟩
/-- the set order that keeps the last occurrences -/
def so0 (α : Type) [DecidableEq α] : SetOrder α := ⟨List.dedup, fun _ => .refl _⟩
/-- a set order that reverses -/
def so1 (α : Type) [DecidableEq α] : SetOrder α := ⟨fun l => l.dedup.reverse, fun l => l.dedup.reverse_perm⟩

theorem l1_reachable : Reachable (.loc l1) := .loc (label := ['1']) (basis := none) (dim := none) (ids := []) (oi := none) rfl
theorem l2_reachable : Reachable (.loc l2) := .loc (label := ['2']) (basis := some [['g'], ['e']]) (dim := none) (ids := []) (oi := none) rfl
theorem l0_reachable : Reachable (.loc l0) := .loc (label := ['9']) (basis := none) (dim := some 3) (ids := []) (oi := some 0) (by decide +kernel)

example : create (so1 _) [.loc l2, .prod [l0, l1], .trivial, .loc l2] = .ok (.prod [l0, l1, l2]) := by decide +kernel
example : Reachable (.prod [l0, l1]) :=
  .create (so := so0 _) (ops := [.loc l1, .loc l0]) (by simp [l1_reachable, l0_reachable]) (by decide +kernel)

/-- C26 is false of `remove`: a local space divided by a product that contains it is unchanged. -/
theorem C26_remove_refuted : ∃ (so : SetOrder Space) (sl : SetOrder Loc) (a b s : Space), Reachable a ∧ Reachable b ∧
    remove so sl a b = .ok s ∧ le a b = true ∧ factors s = factors a ∧ fset a ≠ ∅ := by
  refine ⟨so0 _, so0 _, .loc l1, .prod [l1, l2], .loc l1, l1_reachable, ?_, by decide +kernel, by decide +kernel, rfl, ?_⟩
  · exact .create (so := so0 _) (ops := [.loc l1, .loc l2]) (by simp [l1_reachable, l2_reachable]) (by decide +kernel)
  · simp [fset, factors]

end QNET.Hilbert
