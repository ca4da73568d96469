import Mathlib.Data.List.Sort
import Mathlib.Data.List.Nodup
import Verif.Util.KernelRfl

/-!
# C45: instance keys

Model of `Expression._get_instance_key` (`src/qnet/algebra/core/abstract_algebra.py`, lines 188-199) and `nested_tuple`
(`src/qnet/utils/containers.py`, lines 43-91).
-/

namespace QNET.Cache

/-- Python objects given to `create`: objects that are not containers (numbers, strings, expressions; two of them are the same number here
if Python's `==` holds), tuples, lists, sets, and dictionaries (`ordered`: an `OrderedDict`). -/
inductive PyV where
  | atom (a : ℕ)
  | tuple (l : List PyV)
  | list (l : List PyV)
  | set (l : List PyV)
  | dict (ordered : Bool) (keys : List PyV) (vals : List PyV)

/-- Results of `nested_tuple`: other objects, and tuples. -/
inductive NT where
  | atom (a : ℕ)
  | tup (l : List NT)

mutual
/-- Python's `==` on nested tuples -/
def NT.beq : NT → NT → Bool
  | .atom a, .atom b => a == b
  | .tup l, .tup m => NT.beqL l m
  | _, _ => false
/-- lists -/
def NT.beqL : List NT → List NT → Bool
  | [], [] => true
  | a :: l, b :: m => NT.beq a b && NT.beqL l m
  | _, _ => false
end

mutual
theorem NT.beq_iff : ∀ a b : NT, NT.beq a b = true ↔ a = b
  | .atom a, .atom b => by simp [NT.beq]
  | .atom _, .tup _ => by simp [NT.beq]
  | .tup _, .atom _ => by simp [NT.beq]
  | .tup l, .tup m => by simp [NT.beq, NT.beqL_iff l m]
theorem NT.beqL_iff : ∀ a b : List NT, NT.beqL a b = true ↔ a = b
  | [], [] => by simp [NT.beqL]
  | [], _ :: _ => by simp [NT.beqL]
  | _ :: _, [] => by simp [NT.beqL]
  | a :: l, b :: m => by simp [NT.beqL, NT.beq_iff a b, NT.beqL_iff l m]
end

instance : DecidableEq NT := fun a b => decidable_of_iff _ (NT.beq_iff a b)

/-- `sorted_if_possible(iterable)`, containers.py lines 16-37, where `iterable` is the iterator `map(nested_tuple, ..)` with items `l`. `srt` stands for
Python's `sorted`; `none` is a `TypeError` (items that cannot be ordered). `sorted` has then used up the iterator, and `list(iterable)` is empty. -/
def sortedIfPossible (srt : List NT → Option (List NT)) (l : List NT) : List NT :=
  match srt l with
  | some m => m
  | none => []

mutual
/-- `nested_tuple(container)`, containers.py lines 40-84. -/
def nestedTuple (srt : List NT → Option (List NT)) : PyV → NT
  | .atom a => .atom a
  | .tuple l => .tup (nestedTuples srt l)
  | .list l => .tup (nestedTuples srt l)
  | .set l => .tup (sortedIfPossible srt (nestedTuples srt l))
  | .dict true ks vs => .tup (((nestedTuples srt ks).zip (nestedTuples srt vs)).map (fun p => .tup [p.1, p.2]))
  | .dict false ks vs => .tup (sortedIfPossible srt (((nestedTuples srt ks).zip (nestedTuples srt vs)).map (fun p => .tup [p.1, p.2])))
/-- `map(nested_tuple, container)` -/
def nestedTuples (srt : List NT → Option (List NT)) : List PyV → List NT
  | [] => []
  | a :: l => nestedTuple srt a :: nestedTuples srt l
end

/-- insertion into a list of keyword arguments sorted by name -/
def insertKw (k : ℕ) (v : NT) : List (ℕ × NT) → List (ℕ × NT)
  | [] => [(k, v)]
  | (j, w) :: l => if k ≤ j then (k, v) :: (j, w) :: l else (j, w) :: insertKw k v l

/-- the pairs of a keyword dictionary sorted by name: `sorted` compares the pairs `(name, value)`; the names are different strings, so
the values are never compared -/
def sortKw : List (ℕ × NT) → List (ℕ × NT)
  | [] => []
  | (k, v) :: l => insertKw k v (sortKw l)

/-- A call `cls.create(*args, **kwargs)`. -/
structure Call where
  cls : ℕ
  args : List PyV
  kwargs : List (ℕ × PyV)

/-- `cls._get_instance_key(args, kwargs)`: `(cls,) + nested_tuple(args) + nested_tuple(kwargs)`, abstract_algebra.py line 199. -/
def instanceKey (srt : List NT → Option (List NT)) (c : Call) : ℕ × List NT :=
  (c.cls, nestedTuples srt c.args ++ (sortKw (c.kwargs.map (fun p => (p.1, nestedTuple srt p.2)))).map (fun p => .tup [.atom p.1, p.2]))

mutual
/-- the only containers in `v` are tuples -/
def TupleOnly : PyV → Prop
  | .atom _ => True
  | .tuple l => TupleOnlyL l
  | _ => False
/-- lists -/
def TupleOnlyL : List PyV → Prop
  | [] => True
  | a :: l => TupleOnly a ∧ TupleOnlyL l
end

theorem TupleOnlyL_iff (l : List PyV) : TupleOnlyL l ↔ ∀ v ∈ l, TupleOnly v := by
  induction l with
  | nil => simp [TupleOnlyL]
  | cons a l ih => simp [TupleOnlyL, ih]

mutual
theorem nestedTuple_inj (srt : List NT → Option (List NT)) : ∀ v w : PyV, TupleOnly v → TupleOnly w → nestedTuple srt v = nestedTuple srt w → v = w
  | .atom a, .atom b, _, _, h => by simp only [nestedTuple, NT.atom.injEq] at h; rw [h]
  | .atom _, .tuple _, _, _, h => by simp [nestedTuple] at h
  | .tuple _, .atom _, _, _, h => by simp [nestedTuple] at h
  | .tuple l, .tuple m, h1, h2, h => by
    simp only [nestedTuple, NT.tup.injEq] at h
    simp only [TupleOnly] at h1 h2
    rw [nestedTuples_inj srt l m h1 h2 h]
  | .list _, _, h, _, _ => by simp [TupleOnly] at h
  | .set _, _, h, _, _ => by simp [TupleOnly] at h
  | .dict .., _, h, _, _ => by simp [TupleOnly] at h
  | _, .list _, _, h, _ => by simp [TupleOnly] at h
  | _, .set _, _, h, _ => by simp [TupleOnly] at h
  | _, .dict .., _, h, _ => by simp [TupleOnly] at h
theorem nestedTuples_inj (srt : List NT → Option (List NT)) : ∀ l m : List PyV, TupleOnlyL l → TupleOnlyL m → nestedTuples srt l = nestedTuples srt m → l = m
  | [], [], _, _, _ => rfl
  | [], _ :: _, _, _, h => by simp [nestedTuples] at h
  | _ :: _, [], _, _, h => by simp [nestedTuples] at h
  | a :: l, b :: m, h1, h2, h => by
    simp only [nestedTuples, List.cons.injEq] at h
    simp only [TupleOnlyL] at h1 h2
    rw [nestedTuple_inj srt a b h1.1 h2.1 h.1, nestedTuples_inj srt l m h1.2 h2.2 h.2]
end

theorem nestedTuples_length (srt : List NT → Option (List NT)) (l : List PyV) : (nestedTuples srt l).length = l.length := by
  induction l with
  | nil => rfl
  | cons a l ih => simp [nestedTuples, ih]

theorem insertKw_perm (k : ℕ) (v : NT) (l : List (ℕ × NT)) : (insertKw k v l).Perm ((k, v) :: l) := by
  induction l with
  | nil => exact List.Perm.refl _
  | cons p l ih =>
    obtain ⟨j, w⟩ := p
    unfold insertKw
    split
    · exact List.Perm.refl _
    · exact ((ih.cons (j, w)).trans (List.Perm.swap _ _ _))

theorem sortKw_perm (l : List (ℕ × NT)) : (sortKw l).Perm l := by
  induction l with
  | nil => exact List.Perm.refl _
  | cons p l ih => exact (insertKw_perm p.1 p.2 _).trans (ih.cons p)

theorem kwPair_inj : Function.Injective (fun p : ℕ × NT => NT.tup [.atom p.1, p.2]) := by
  rintro ⟨a, b⟩ ⟨c, d⟩ h
  simp only [NT.tup.injEq, List.cons.injEq, NT.atom.injEq, and_true] at h
  rw [h.1, h.2]

/-- C45 (partial): for calls whose arguments contain no containers other than tuples, with the same number of positional arguments, equal
instance keys mean the same class, the same arguments and the same keyword arguments (in any order). -/
theorem C45_injective_partial (srt : List NT → Option (List NT)) (c d : Call) (hn : c.args.length = d.args.length)
    (hc : ∀ v ∈ c.args, TupleOnly v) (hd : ∀ v ∈ d.args, TupleOnly v)
    (hc' : ∀ p ∈ c.kwargs, TupleOnly p.2) (hd' : ∀ p ∈ d.kwargs, TupleOnly p.2)
    (h : instanceKey srt c = instanceKey srt d) : c.cls = d.cls ∧ c.args = d.args ∧ c.kwargs.Perm d.kwargs := by
  unfold instanceKey at h
  rw [Prod.mk.injEq] at h
  obtain ⟨h1, h2⟩ := h
  obtain ⟨h3, h4⟩ := List.append_inj h2 (by simp [nestedTuples_length, hn])
  refine ⟨h1, nestedTuples_inj srt _ _ ((TupleOnlyL_iff _).mpr hc) ((TupleOnlyL_iff _).mpr hd) h3, ?_⟩
  have h5 := List.map_injective_iff.mpr kwPair_inj h4
  have h6 : (c.kwargs.map (fun p => (p.1, nestedTuple srt p.2))).Perm (d.kwargs.map (fun p => (p.1, nestedTuple srt p.2))) :=
    ((sortKw_perm _).symm.trans (h5 ▸ List.Perm.refl _)).trans (sortKw_perm _)
  -- cancel the injective map
  have key : ∀ l m : List (ℕ × PyV), (∀ p ∈ l, TupleOnly p.2) → (∀ p ∈ m, TupleOnly p.2) →
      (l.map (fun p => (p.1, nestedTuple srt p.2))).Perm (m.map (fun p => (p.1, nestedTuple srt p.2))) → l.Perm m := by
    intro l
    induction l with
    | nil => intro m _ _ h; cases m with
      | nil => exact List.Perm.refl _
      | cons => simp at h
    | cons p l ih =>
      intro m hl hm h
      have hmem : (p.1, nestedTuple srt p.2) ∈ m.map (fun p => (p.1, nestedTuple srt p.2)) := h.subset (by simp)
      obtain ⟨q, hq, e⟩ := List.mem_map.mp hmem
      rw [Prod.mk.injEq] at e
      have hpq : q = p := Prod.ext e.1 (nestedTuple_inj srt _ _ (hm q hq) (hl p (by simp)) e.2)
      subst hpq
      obtain ⟨m1, m2, rfl⟩ := List.append_of_mem hq
      have h' : (l.map (fun p => (p.1, nestedTuple srt p.2))).Perm ((m1 ++ m2).map (fun p => (p.1, nestedTuple srt p.2))) := by
        have : ((m1 ++ q :: m2).map (fun p => (p.1, nestedTuple srt p.2))).Perm ((q :: (m1 ++ m2)).map (fun p => (p.1, nestedTuple srt p.2))) :=
          List.perm_middle.map _
        have := h.trans this
        simp only [List.map_cons] at this
        exact this.cons_inv
      have := ih (m1 ++ m2) (fun x hx => hl x (by simp [hx])) (fun x hx => hm x (by simp at hx ⊢; tauto)) h'
      exact (this.cons q).trans List.perm_middle.symm
  exact key _ _ hc' hd' h6

theorem insertKw_comm (k j : ℕ) (v w : NT) (h : k ≠ j) (l : List (ℕ × NT)) : insertKw k v (insertKw j w l) = insertKw j w (insertKw k v l) := by
  induction l with
  | nil =>
    simp only [insertKw]
    rcases Nat.lt_or_gt_of_ne h with h' | h'
    · rw [if_pos (Nat.le_of_lt h'), if_neg (by omega)]
    · rw [if_neg (by omega), if_pos (by omega)]
  | cons p l ih =>
    obtain ⟨i, u⟩ := p
    simp only [insertKw]
    by_cases h1 : j ≤ i <;> by_cases h2 : k ≤ i <;> simp only [h1, h2, if_true, if_false, insertKw]
    · rcases Nat.lt_or_gt_of_ne h with h' | h'
      · rw [if_pos (Nat.le_of_lt h'), if_neg (show ¬ j ≤ k by omega)]
      · rw [if_neg (show ¬ k ≤ j by omega), if_pos (Nat.le_of_lt h')]
    · rw [if_neg (show ¬ k ≤ j by omega)]
    · rw [if_neg (show ¬ j ≤ k by omega)]
    · rw [ih]

theorem sortKw_congr : ∀ {l m : List (ℕ × NT)}, l.Perm m → (l.map Prod.fst).Nodup → sortKw l = sortKw m := by
  intro l m h
  induction h with
  | nil => intro _; rfl
  | cons x _ ih => intro hn; simp only [List.map_cons, List.nodup_cons] at hn; simp only [sortKw, ih hn.2]
  | swap x y l => intro hn; simp only [List.map_cons, List.nodup_cons, List.mem_cons] at hn; exact insertKw_comm _ _ _ _ (by tauto) _
  | trans h1 h2 ih1 ih2 => intro hn; exact (ih1 hn).trans (ih2 ((h1.map _).nodup_iff.mp hn))

/-- C45, converse: the order in which keyword arguments are given does not matter: calls with the same class, arguments and keyword
arguments have the same key and share the cached instance. -/
theorem C45_same_call (srt : List NT → Option (List NT)) (c d : Call) (hk : (c.kwargs.map Prod.fst).Nodup)
    (h1 : c.cls = d.cls) (h2 : c.args = d.args) (h3 : c.kwargs.Perm d.kwargs) : instanceKey srt c = instanceKey srt d := by
  unfold instanceKey
  rw [h1, h2, sortKw_congr (h3.map _) (by simpa [List.map_map, Function.comp_def] using hk)]

/-- non-vacuity: `create(a, (b, c), x=(d,), y=e)` and the same with another order of the keywords -/
example : instanceKey some ⟨0, [.atom 1, .tuple [.atom 2, .atom 3]], [(10, .tuple [.atom 4]), (11, .atom 5)]⟩ =
    instanceKey some ⟨0, [.atom 1, .tuple [.atom 2, .atom 3]], [(11, .atom 5), (10, .tuple [.atom 4])]⟩ := by decide +kernel
example : instanceKey some ⟨0, [.atom 1, .tuple [.atom 2, .atom 3]], [(10, .tuple [.atom 4])]⟩ ≠
    instanceKey some ⟨0, [.atom 1, .atom 2, .atom 3], [(10, .tuple [.atom 4])]⟩ := by decide +kernel

/-- C45 fails without the restrictions: `create('a', ('x', 1))` and `create('a', x=1)` have the same key: the tuples of positional and
keyword arguments are concatenated. -/
theorem C45_positional_keyword_refuted (srt : List NT → Option (List NT)) : ∃ c d : Call, instanceKey srt c = instanceKey srt d ∧
    c.args.length ≠ d.args.length ∧ (∀ v ∈ c.args, TupleOnly v) ∧ (∀ v ∈ d.args, TupleOnly v) :=
  ⟨⟨0, [.atom 7, .tuple [.atom 1, .atom 2]], []⟩, ⟨0, [.atom 7], [(1, .atom 2)]⟩, rfl, by decide, by simp [TupleOnly, TupleOnlyL],
    by simp [TupleOnly]⟩

/-- C45 fails for arguments containing lists: `create([1, 2])` and `create((1, 2))` have the same key. -/
theorem C45_list_tuple_refuted (srt : List NT → Option (List NT)) : instanceKey srt ⟨0, [.list [.atom 1, .atom 2]], []⟩ =
    instanceKey srt ⟨0, [.tuple [.atom 1, .atom 2]], []⟩ := rfl

/-- cancelling an injective map -/
theorem nestedTuples_perm (srt : List NT → Option (List NT)) : ∀ l m : List PyV, TupleOnlyL l → TupleOnlyL m →
    (nestedTuples srt l).Perm (nestedTuples srt m) → l.Perm m := by
  have e : ∀ l : List PyV, nestedTuples srt l = l.map (nestedTuple srt) := by
    intro l; induction l with
    | nil => rfl
    | cons a l ih => simp [nestedTuples, ih]
  intro l
  induction l with
  | nil => intro m _ _ h; rw [e, e] at h; cases m with
    | nil => exact List.Perm.refl _
    | cons => simp at h
  | cons p l ih =>
    intro m hl hm h
    have hl' := (TupleOnlyL_iff _).mp hl
    have hm' := (TupleOnlyL_iff _).mp hm
    have hmem : nestedTuple srt p ∈ nestedTuples srt m := h.subset (by simp [nestedTuples])
    rw [e] at hmem
    obtain ⟨q, hq, e'⟩ := List.mem_map.mp hmem
    have hpq : q = p := nestedTuple_inj srt _ _ (hm' q hq) (hl' p (by simp)) e'
    subst hpq
    obtain ⟨m1, m2, rfl⟩ := List.append_of_mem hq
    have h' : (nestedTuples srt l).Perm (nestedTuples srt (m1 ++ m2)) := by
      have h1 : (nestedTuples srt (m1 ++ q :: m2)).Perm (nestedTuple srt q :: nestedTuples srt (m1 ++ m2)) := by
        rw [e, e]; simp only [List.map_append, List.map_cons]; exact List.perm_middle
      have h2 := h.trans h1
      simp only [nestedTuples] at h2
      exact h2.cons_inv
    have := ih (m1 ++ m2) ((TupleOnlyL_iff _).mpr (fun x hx => hl' x (by simp [hx]))) ((TupleOnlyL_iff _).mpr (fun x hx => hm' x (by simp at hx ⊢; tauto))) h'
    exact (this.cons q).trans List.perm_middle.symm

theorem nestedTuples_map (srt : List NT → Option (List NT)) (l : List PyV) : nestedTuples srt l = l.map (nestedTuple srt) := by
  induction l with
  | nil => rfl
  | cons a l ih => simp [nestedTuples, ih]

/-- C45: a set given as argument counts by its elements, in whatever order Python iterates over them: if `sorted` does not fail and returns the same
list for every order of the same items, then two sets of tuples of atoms have the same key if and only if they have the same elements. -/
theorem C45_sets (srt : List NT → Option (List NT)) (hperm : ∀ l m, srt l = some m → m.Perm l) (hcanon : ∀ l m, l.Perm m → srt l = srt m)
    (cls : ℕ) (l m : List PyV) (hl : TupleOnlyL l) (hm : TupleOnlyL m) (h1 : (srt (nestedTuples srt l)).isSome) (h2 : (srt (nestedTuples srt m)).isSome) :
    instanceKey srt ⟨cls, [.set l], []⟩ = instanceKey srt ⟨cls, [.set m], []⟩ ↔ l.Perm m := by
  obtain ⟨a, ha⟩ := Option.isSome_iff_exists.mp h1
  obtain ⟨b, hb⟩ := Option.isSome_iff_exists.mp h2
  constructor
  · intro h
    simp only [instanceKey, nestedTuples, nestedTuple, sortedIfPossible, ha, hb, Prod.mk.injEq, List.map_nil, sortKw, List.append_nil, List.cons.injEq,
      NT.tup.injEq, and_true, true_and] at h
    subst h
    exact nestedTuples_perm srt l m hl hm ((hperm _ _ ha).symm.trans (hperm _ _ hb))
  · intro h
    have e : srt (nestedTuples srt l) = srt (nestedTuples srt m) := hcanon _ _ (by rw [nestedTuples_map, nestedTuples_map]; exact h.map _)
    simp only [instanceKey, nestedTuples, nestedTuple, sortedIfPossible, e]

/-- the same for the key-value pairs of a dictionary that is not an `OrderedDict`: the order of insertion does not matter, and for an `OrderedDict` it does -/
theorem C45_dicts (srt : List NT → Option (List NT)) (hcanon : ∀ l m, l.Perm m → srt l = srt m)
    (cls : ℕ) (l m : List (PyV × PyV)) (h : l.Perm m) :
    instanceKey srt ⟨cls, [.dict false (l.map Prod.fst) (l.map Prod.snd)], []⟩ = instanceKey srt ⟨cls, [.dict false (m.map Prod.fst) (m.map Prod.snd)], []⟩ ∧
    (TupleOnlyL (l.map Prod.fst) → TupleOnlyL (l.map Prod.snd) → TupleOnlyL (m.map Prod.fst) → TupleOnlyL (m.map Prod.snd) →
      instanceKey srt ⟨cls, [.dict true (l.map Prod.fst) (l.map Prod.snd)], []⟩ = instanceKey srt ⟨cls, [.dict true (m.map Prod.fst) (m.map Prod.snd)], []⟩ →
      l = m) := by
  have e : ∀ l : List (PyV × PyV), ((nestedTuples srt (l.map Prod.fst)).zip (nestedTuples srt (l.map Prod.snd))).map (fun p => NT.tup [p.1, p.2]) =
      l.map (fun p => NT.tup [nestedTuple srt p.1, nestedTuple srt p.2]) := by
    intro l
    induction l with
    | nil => rfl
    | cons a l ih => simp [nestedTuples, ih]
  constructor
  · simp only [instanceKey, nestedTuples, nestedTuple, sortedIfPossible, e]
    rw [hcanon _ _ (h.map _)]
  · intro h1 h2 h3 h4 h5
    simp only [instanceKey, nestedTuples, nestedTuple, e, Prod.mk.injEq, List.map_nil, sortKw, List.append_nil, List.cons.injEq,
      NT.tup.injEq, and_true, true_and] at h5
    clear h
    rw [TupleOnlyL_iff] at h1 h2 h3 h4
    induction l generalizing m with
    | nil => cases m with
      | nil => rfl
      | cons => simp at h5
    | cons p l ih =>
      cases m with
      | nil => simp at h5
      | cons q m =>
        simp only [List.map_cons, List.cons.injEq, NT.tup.injEq, and_true] at h5
        have e1 := nestedTuple_inj srt p.1 q.1 (h1 _ (by simp)) (h3 _ (by simp)) h5.1.1
        have e2 := nestedTuple_inj srt p.2 q.2 (h2 _ (by simp)) (h4 _ (by simp)) h5.1.2
        rw [ih m (fun v hv => h1 v (by simp at hv ⊢; tauto)) (fun v hv => h2 v (by simp at hv ⊢; tauto)) (fun v hv => h3 v (by simp at hv ⊢; tauto))
          (fun v hv => h4 v (by simp at hv ⊢; tauto)) h5.2, Prod.ext e1 e2]

/-- the number that an object stands for: the atoms below 100 stand for numbers, other objects have no order here -/
def NT.num : NT → Option ℕ
  | .atom a => if a < 100 then some a else none
  | .tup _ => none

/-- `sorted` of objects that are all numbers -/
def sortNumbers (l : List NT) : Option (List NT) :=
  if l.all (fun x => x.num.isSome) then some (((l.filterMap NT.num).insertionSort (· ≤ ·)).map NT.atom) else none

theorem NT.num_some {x : NT} {a : ℕ} (h : x.num = some a) : x = .atom a := by
  cases x with
  | atom b =>
    simp only [NT.num] at h
    split at h
    · injection h with h; rw [h]
    · cases h
  | tup l => cases h

/-- the hypotheses of `C45_sets` are satisfiable -/
example (l m : List PyV) (hl : TupleOnlyL l) (hm : TupleOnlyL m) (h1 : (sortNumbers (nestedTuples sortNumbers l)).isSome)
    (h2 : (sortNumbers (nestedTuples sortNumbers m)).isSome) :
    instanceKey sortNumbers ⟨0, [.set l], []⟩ = instanceKey sortNumbers ⟨0, [.set m], []⟩ ↔ l.Perm m := by
  refine C45_sets sortNumbers ?_ ?_ 0 l m hl hm h1 h2
  · intro l m h
    unfold sortNumbers at h
    split at h
    · rename_i ha
      injection h with h
      subst h
      refine ((List.perm_insertionSort _ _).map _).trans ?_
      rw [List.all_eq_true] at ha
      clear h1 h2
      have : (l.filterMap NT.num).map NT.atom = l := by
        induction l with
        | nil => rfl
        | cons x l ih =>
          obtain ⟨a, hx⟩ := Option.isSome_iff_exists.mp (ha x (by simp))
          rw [List.filterMap_cons, hx]
          simp only [List.map_cons]
          rw [ih (fun y hy => ha y (by simp [hy])), NT.num_some hx]
      rw [this]
    · cases h
  · intro l m h
    unfold sortNumbers
    have e1 : l.all (fun x => x.num.isSome) = m.all (fun x => x.num.isSome) := by
      rw [Bool.eq_iff_iff, List.all_eq_true, List.all_eq_true]
      exact ⟨fun h' x hx => h' x (h.mem_iff.mpr hx), fun h' x hx => h' x (h.mem_iff.mp hx)⟩
    have e2 : (l.filterMap NT.num).insertionSort (· ≤ ·) = (m.filterMap NT.num).insertionSort (· ≤ ·) :=
      List.Perm.eq_of_pairwise' (r := (· ≤ ·)) (List.pairwise_insertionSort _ _) (List.pairwise_insertionSort _ _)
        (((List.perm_insertionSort _ _).trans (h.filterMap _)).trans (List.perm_insertionSort _ _).symm)
    rw [e1, e2]

example : instanceKey sortNumbers ⟨0, [.set [.atom 3, .atom 1, .atom 2]], []⟩ = instanceKey sortNumbers ⟨0, [.set [.atom 1, .atom 2, .atom 3]], []⟩ := by
  kernel_rfl
example : sortNumbers [.atom 3, .atom 1] = some [.atom 1, .atom 3] := by kernel_rfl

/-- C45 fails for sets and dictionaries whose items cannot be ordered: whenever `sorted` raises a `TypeError`, the key does not contain the items at all:
`create({1, 'a'})` and `create({2, 'b'})` have the same key, and so has `create(())`. -/
theorem C45_unorderable_refuted (srt : List NT → Option (List NT)) (cls : ℕ) (l m : List PyV) (h1 : srt (nestedTuples srt l) = none)
    (h2 : srt (nestedTuples srt m) = none) :
    instanceKey srt ⟨cls, [.set l], []⟩ = instanceKey srt ⟨cls, [.set m], []⟩ ∧ instanceKey srt ⟨cls, [.set l], []⟩ = instanceKey srt ⟨cls, [.tuple []], []⟩ := by
  simp only [instanceKey, nestedTuples, nestedTuple, sortedIfPossible, h1, h2, and_self]

example : instanceKey sortNumbers ⟨0, [.set [.atom 1, .atom 200]], []⟩ = instanceKey sortNumbers ⟨0, [.set [.atom 2, .atom 201]], []⟩ := by kernel_rfl

/-- C45 fails for dictionaries: `create({1: 2})` and `create(((1, 2),))` have the same key. -/
theorem C45_dict_tuple_refuted (srt : List NT → Option (List NT)) : instanceKey srt ⟨0, [.dict true [.atom 1] [.atom 2]], []⟩ =
    instanceKey srt ⟨0, [.tuple [.tuple [.atom 1, .atom 2]]], []⟩ := rfl

end QNET.Cache
