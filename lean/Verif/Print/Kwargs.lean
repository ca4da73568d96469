import Verif.Util.PySort
import Mathlib.Data.Rat.Floor
import Mathlib.Data.List.Nodup
import Mathlib.Tactic.Linarith

/-!
# Objects can be rebuilt from `args` and `kwargs` (C72)

`srepr`, `substitute`, `rebuild` and the rules re-instantiate an expression as `cls(*expr.args, **expr.minimal_kwargs)`, respectively `cls.create(*expr.args, **expr.kwargs)`.
The classes whose `kwargs` are not the arguments as given:
`LocalSpace` (`hilbert_space_algebra.py` 217-291), `SpinSpace` (`spin_algebra.py` 72-115), `Component` (`circuit_algebra.py` 675-742),
`QuantumDerivative` (`abstract_quantum_algebra.py` 700-757), `OperatorPlusMinusCC` (`operator_algebra.py` 689-712).
-/

namespace QNET.Kwargs

abbrev Str := List Char

inductive Err where
  | valueError
  | typeError
  deriving DecidableEq, Repr

/-! ### `dict`s -/

/-- `dict(items)`: for equal keys, the first position and the last value -/
def dictOf {K V : Type} [DecidableEq K] (l : List (K × V)) : List (K × V) :=
  l.foldl (fun d e => if d.any (fun x => x.1 = e.1) then d.map (fun x => if x.1 = e.1 then (x.1, e.2) else x) else d ++ [e]) []

/-! ### `LocalSpace` -/

/-- arguments of `LocalSpace(label, basis=…, dimension=…, local_identifiers=…, order_index=…)`; `none` is `None`.
`order_index = float('inf')` is treated like `None` by the code and is `none` here. The entries of `basis` and the label are given as strings (`str(label)`). -/
structure LArgs where
  label : Str
  basis : Option (List Str)
  dim : Option ℕ
  ids : Option (List (Str × Str))
  order : Option ℤ
  deriving DecidableEq

/-- a `LocalSpace`: the data of its `_instance_key`, and which of the keyword arguments are in `_minimal_kwargs` -/
structure LSpace where
  label : Str
  basis : Option (List Str)
  dim : Option ℕ
  ids : List (Str × Str)
  order : Option ℤ
  kBasis : Bool
  kDim : Bool
  kIds : Bool
  kOrder : Bool
  deriving DecidableEq

/-- equality of spaces: `_instance_key` (`abstract_algebra.py` 363-368; `hilbert_space_algebra.py` 288-291) -/
def LSpace.Same (a b : LSpace) : Prop := a.label = b.label ∧ a.basis = b.basis ∧ a.dim = b.dim ∧ a.ids = b.ids ∧ a.order = b.order

variable (okLabel : Str → Bool) (str : ℕ → Str) (le : Str × Str → Str × Str → Bool)

/-- `LocalSpace.__init__`; `okLabel`: the label matches the pattern of line 215; `str`: Python's `str` of an integer; `le`: comparison of pairs of strings -/
def initL (a : LArgs) : Except Err LSpace :=
  if okLabel a.label = false then .error .valueError else
  let mk (basis : Option (List Str)) (dim : Option ℕ) : LSpace :=
    ⟨a.label, basis, dim, isort le (dictOf (a.ids.getD [])), a.order, a.basis.isSome, a.dim.isSome, a.ids.isSome, a.order.isSome⟩
  match a.basis, a.dim with
  | none, none => .ok (mk none none)
  | none, some d => .ok (mk (some ((List.range d).map str)) (some d))
  | some b, none => .ok (mk (some b) (some b.length))
  | some b, some d => if d ≠ b.length then .error .valueError else .ok (mk (some b) (some d))

/-- `args` and `kwargs` (line 279-282) -/
def LSpace.full (s : LSpace) : LArgs := ⟨s.label, s.basis, s.dim, some s.ids, s.order⟩
/-- `args` and `minimal_kwargs` (lines 283-285) -/
def LSpace.minimal (s : LSpace) : LArgs :=
  ⟨s.label, if s.kBasis then s.basis else none, if s.kDim then s.dim else none, if s.kIds then some s.ids else none, if s.kOrder then s.order else none⟩

theorem dictOf_keys {K V : Type} [DecidableEq K] : ∀ (l : List (K × V)), ((dictOf l).map (·.1)).Nodup := by
  intro l
  unfold dictOf
  suffices h : ∀ (l d : List (K × V)), (d.map (·.1)).Nodup → ((l.foldl (fun d e => if d.any (fun x => x.1 = e.1) then d.map (fun x => if x.1 = e.1 then (x.1, e.2) else x) else d ++ [e]) d).map (·.1)).Nodup by
    exact h l [] List.nodup_nil
  intro l
  induction l with
  | nil => intro d h; exact h
  | cons e l ih =>
    intro d h
    rw [List.foldl_cons]
    refine ih _ ?_
    split
    · have : (d.map fun x => if x.1 = e.1 then (x.1, e.2) else x).map (·.1) = d.map (·.1) := by
        rw [List.map_map]
        refine List.map_congr_left fun x _ => ?_
        simp only [Function.comp]
        split <;> rfl
      rw [this]; exact h
    · next hn =>
      rw [List.map_append, List.nodup_append]
      refine ⟨h, by simp, ?_⟩
      intro a ha b hb hab
      obtain ⟨x, hx, rfl⟩ := List.mem_map.mp ha
      simp only [List.map_cons, List.map_nil, List.mem_singleton] at hb
      subst hb
      exact hn (List.any_eq_true.mpr ⟨x, hx, by simpa using hab⟩)

theorem dictOf_nodup {K V : Type} [DecidableEq K] : ∀ (l : List (K × V)), (l.map (·.1)).Nodup → dictOf l = l := by
  intro l
  unfold dictOf
  suffices h : ∀ (l d : List (K × V)), ((d ++ l).map (·.1)).Nodup →
      l.foldl (fun d e => if d.any (fun x => x.1 = e.1) then d.map (fun x => if x.1 = e.1 then (x.1, e.2) else x) else d ++ [e]) d = d ++ l by
    intro hl; exact h l [] hl
  intro l
  induction l with
  | nil => intro d _; simp
  | cons e l ih =>
    intro d h
    rw [List.foldl_cons, if_neg, ih]
    · simp
    · simpa using h
    · intro hc
      obtain ⟨x, hx, he⟩ := List.any_eq_true.mp hc
      simp only [List.map_append, List.map_cons, List.nodup_append] at h
      exact h.2.2 x.1 (List.mem_map_of_mem hx) e.1 List.mem_cons_self (by simpa using he)

theorem ids_fixed (htrans : ∀ a b c, le a b → le b c → le a c) (htotal : ∀ a b, (le a b || le b a) = true) (l : List (Str × Str)) :
    isort le (dictOf (isort le (dictOf l))) = isort le (dictOf l) := by
  have hn : ((isort le (dictOf l)).map (·.1)).Nodup := ((isort_perm le (dictOf l)).map _).nodup_iff.mpr (dictOf_keys l)
  rw [dictOf_nodup _ hn, isort_of_sorted _ (isort_pairwise htrans htotal _)]

/-- A `LocalSpace` is rebuilt from `args` and `minimal_kwargs` exactly, with the same `minimal_kwargs`; and from `args` and `kwargs` up to equality. -/
theorem C72_localspace (htrans : ∀ a b c, le a b → le b c → le a c) (htotal : ∀ a b, (le a b || le b a) = true) {a : LArgs} {s : LSpace} (h : initL okLabel str le a = .ok s) :
    initL okLabel str le s.minimal = .ok s ∧ ∃ s', initL okLabel str le s.full = .ok s' ∧ s'.Same s := by
  obtain ⟨label, basis, dim, ids, order⟩ := a
  unfold initL at h
  dsimp only at h
  split at h
  · cases h
  · next hl =>
    have hi := ids_fixed le htrans htotal
    have h0 : isort le (dictOf ([] : List (Str × Str))) = [] := rfl
    cases basis with
    | none =>
      cases dim with
      | none =>
        injection h with h; subst h
        cases ids <;> cases order <;> simp [initL, LSpace.minimal, LSpace.full, LSpace.Same, hl, hi, h0]
      | some d =>
        injection h with h; subst h
        cases ids <;> cases order <;> simp [initL, LSpace.minimal, LSpace.full, LSpace.Same, hl, hi, h0]
    | some b =>
      cases dim with
      | none =>
        injection h with h; subst h
        cases ids <;> cases order <;> simp [initL, LSpace.minimal, LSpace.full, LSpace.Same, hl, hi, h0]
      | some d =>
        dsimp only at h
        split at h
        · cases h
        · next hd =>
          have hd : d = b.length := not_not.mp hd
          subst hd
          injection h with h; subst h
          cases ids <;> cases order <;> simp [initL, LSpace.minimal, LSpace.full, LSpace.Same, hl, hi, h0]

/-! ### `SpinSpace` -/

structure SArgs where
  label : Str
  spin : ℚ
  basis : Option (List Str)
  ids : Option (List (Str × Str))
  order : Option ℤ
  deriving DecidableEq

structure SSpace where
  spin : ℚ
  space : LSpace
  deriving DecidableEq

/-- `spin_algebra.py` 72-115. The space is built by `LocalSpace.__init__` with `basis` and `dimension`; `render`: `SpinIndex._static_render` (`indices.py` 352-369).
The check for labels in the wrong order (lines 94-100) compares tuples. -/
def initS (render : ℚ → Str) (a : SArgs) : Except Err SSpace :=
  if (2 * a.spin).den ≠ 1 then .error .valueError else
  let dim := ((2 * a.spin).num + 1)
  if dim ≤ 1 then .error .valueError else
  let go (basis : List Str) := (initL okLabel str le ⟨a.label, some basis, some dim.toNat, a.ids, a.order⟩).map (SSpace.mk a.spin)
  match a.basis with
  | none => go ((List.range dim.toNat).map fun n : ℕ => render (-a.spin + n))
  | some b => if b = [['u', 'p'], ['d', 'o', 'w', 'n']] ∨ b = [['+'], ['-']] then .error .valueError else go b

/-- `kwargs` (lines 106-109): there is no `basis` -/
def SSpace.full (s : SSpace) : SArgs := ⟨s.space.label, s.spin, none, some s.space.ids, s.space.order⟩
/-- `minimal_kwargs` (lines 110-114) -/
def SSpace.minimal (s : SSpace) : SArgs := ⟨s.space.label, s.spin, none, if s.space.kIds then some s.space.ids else none, if s.space.kOrder then s.space.order else none⟩

/-- the labels of a `SpinSpace` without custom labels -/
def spinLabels (render : ℚ → Str) (spin : ℚ) : List Str := (List.range ((2 * spin).num + 1).toNat).map fun n : ℕ => render (-spin + n)

theorem initS_ok {render : ℚ → Str} {a : SArgs} {s : SSpace} (h : initS okLabel str le render a = .ok s) :
    (2 * a.spin).den = 1 ∧ ¬ ((2 * a.spin).num + 1 ≤ 1) ∧ s.spin = a.spin ∧
      ∃ b : List Str, initL okLabel str le ⟨a.label, some b, some ((2 * a.spin).num + 1).toNat, a.ids, a.order⟩ = .ok s.space ∧ (b = spinLabels render a.spin ∨ a.basis = some b) := by
  unfold initS at h
  dsimp only at h
  split at h
  · cases h
  · next h1 =>
    split at h
    · cases h
    · next h2 =>
      refine ⟨not_not.mp h1, h2, ?_⟩
      split at h
      · next hb =>
        cases hs : initL okLabel str le ⟨a.label, some ((List.range ((2 * a.spin).num + 1).toNat).map fun n : ℕ => render (-a.spin + n)), some ((2 * a.spin).num + 1).toNat, a.ids, a.order⟩ with
        | error e => rw [hs] at h; cases h
        | ok x => rw [hs] at h; cases h; exact ⟨rfl, _, hs, .inl rfl⟩
      · next b hb =>
        split at h
        · cases h
        · cases hs : initL okLabel str le ⟨a.label, some b, some ((2 * a.spin).num + 1).toNat, a.ids, a.order⟩ with
          | error e => rw [hs] at h; cases h
          | ok x => rw [hs] at h; cases h; exact ⟨rfl, b, hs, .inr hb⟩

theorem initL_fields {a : LArgs} {s : LSpace} (h : initL okLabel str le a = .ok s) {b : List Str} (hb : a.basis = some b) {d : ℕ} (hd : a.dim = some d) :
    okLabel a.label = true ∧ d = b.length ∧
      s = ⟨a.label, some b, some d, isort le (dictOf (a.ids.getD [])), a.order, true, true, a.ids.isSome, a.order.isSome⟩ := by
  unfold initL at h
  split at h
  · cases h
  · next hl =>
    dsimp only at h
    rw [hb, hd] at h
    dsimp only at h
    split at h
    · cases h
    · next h1 =>
      injection h with h
      exact ⟨by simpa using hl, not_not.mp h1, by rw [← h]; rfl⟩

/-- A `SpinSpace` is rebuilt from its `args` and `minimal_kwargs` if and only if it has the standard labels; rebuilding always gives the standard labels. -/
theorem C72_spinspace_iff_partial (htrans : ∀ a b c, le a b → le b c → le a c) (htotal : ∀ a b, (le a b || le b a) = true) (render : ℚ → Str) {a : SArgs} {s : SSpace}
    (h : initS okLabel str le render a = .ok s) :
    ∃ s', initS okLabel str le render s.minimal = .ok s' ∧ s'.space.basis = some (spinLabels render a.spin) ∧ (s'.space.Same s.space ↔ s.space.basis = some (spinLabels render a.spin)) ∧
      (s' = s ↔ s.space.basis = some (spinLabels render a.spin)) := by
  obtain ⟨h1, h2, h3, b, h4, -⟩ := initS_ok okLabel str le h
  obtain ⟨g1, g2, g3⟩ := initL_fields okLabel str le h4 rfl rfl
  have hlen : ((2 * a.spin).num + 1).toNat = (spinLabels render a.spin).length := by simp [spinLabels]
  obtain ⟨spin, space⟩ := s
  dsimp only at h3 g3
  subst h3
  have hi := ids_fixed le htrans htotal
  have h0 : isort le (dictOf ([] : List (Str × Str))) = [] := rfl
  refine ⟨⟨a.spin, { space with basis := some (spinLabels render a.spin) }⟩, ?_, rfl, ?_, ?_⟩
  · subst g3
    unfold initS SSpace.minimal
    dsimp only
    rw [if_neg (by simp [h1]), if_neg h2]
    change (initL okLabel str le ⟨_, some (spinLabels render a.spin), _, _, _⟩).map _ = _
    unfold initL
    dsimp only
    rw [if_neg (by simpa using g1), if_neg (by simp [hlen])]
    cases a.ids <;> cases a.order <;> simp [Except.map, hi, h0]
  · subst g3
    constructor
    · intro hs; exact hs.2.1.symm
    · intro hs; exact ⟨rfl, hs.symm, rfl, rfl, rfl⟩
  · subst g3
    constructor
    · intro hs; rw [← hs]
    · intro hs
      dsimp only at hs ⊢
      rw [hs]

/-! ### `Component` -/

/-- class attributes of a `Component` (`circuit_algebra.py` 668-673): `ARGNAMES` with the default values, and `IDENTIFIER` -/
structure CClass (V : Type) where
  ident : Str
  args : List (Str × V)

/-- a component: its label and the value of each argument -/
structure Comp (V : Type) where
  label : Str
  vals : List (Str × V)
  deriving DecidableEq

def lookup {V : Type} (l : List (Str × V)) (k : Str) : Option V := (l.find? fun e => e.1 = k).map (·.2)

/-- `Component.__init__` (lines 690-718) -/
def initC {V : Type} (C : CClass V) (label : Option Str) (kw : List (Str × V)) : Except Err (Comp V) :=
  if kw.any (fun e => !(C.args.any fun x => x.1 = e.1)) then .error .typeError
  else .ok ⟨label.getD C.ident, C.args.map fun x => (x.1, (lookup kw x.1).getD x.2)⟩

/-- `minimal_kwargs` (lines 703-716): the label if it is not the identifier, and the values that are not the default -/
def Comp.minimal {V : Type} [DecidableEq V] (C : CClass V) (c : Comp V) : Option Str × List (Str × V) :=
  (if c.label ≠ C.ident then some c.label else none, c.vals.filter fun e => decide (lookup C.args e.1 ≠ some e.2))

/-- `kwargs` (lines 702-714) -/
def Comp.full {V : Type} (c : Comp V) : Option Str × List (Str × V) := (some c.label, c.vals)

theorem lookup_mem {V : Type} {l : List (Str × V)} (hn : (l.map (·.1)).Nodup) {k : Str} {v : V} (h : (k, v) ∈ l) : lookup l k = some v := by
  induction l with
  | nil => cases h
  | cons e l ih =>
    rw [List.map_cons, List.nodup_cons] at hn
    unfold lookup
    rw [List.find?_cons]
    rcases List.mem_cons.mp h with rfl | h
    · simp
    · by_cases he : e.1 = k
      · exact absurd (List.mem_map_of_mem h) (he ▸ hn.1)
      · simp only [he, decide_false]
        exact ih hn.2 h

theorem lookup_none {V : Type} {l : List (Str × V)} {k : Str} (h : ∀ v, (k, v) ∉ l) : lookup l k = none := by
  unfold lookup
  rw [List.find?_eq_none.mpr]
  · rfl
  · intro x hx he
    have : x.1 = k := by simpa using he
    exact h x.2 (this ▸ hx)

/-- A component is rebuilt from `kwargs`, and from `minimal_kwargs`. -/
theorem C72_component {V : Type} [DecidableEq V] (C : CClass V) (hC : (C.args.map (·.1)).Nodup) {label : Option Str} {kw : List (Str × V)} {c : Comp V} (h : initC C label kw = .ok c) :
    initC C (c.minimal C).1 (c.minimal C).2 = .ok c ∧ initC C c.full.1 c.full.2 = .ok c := by
  unfold initC at h
  split at h
  · cases h
  · injection h with h
    subst h
    have hkeys : ((C.args.map fun x => (x.1, (lookup kw x.1).getD x.2)).map (·.1)).Nodup := by rw [List.map_map]; exact hC
    refine ⟨?_, ?_⟩
    · unfold initC Comp.minimal
      rw [if_neg]
      · congr 2
        · dsimp only
          split
          · rfl
          · next hl => exact (not_not.mp hl).symm
        · refine List.map_congr_left fun x hx => ?_
          have hx0 : lookup C.args x.1 = some x.2 := lookup_mem hC hx
          by_cases hv : (lookup kw x.1).getD x.2 = x.2
          · rw [lookup_none, Option.getD_none, hv]
            intro v hv'
            obtain ⟨hm, hd⟩ := List.mem_filter.mp hv'
            obtain ⟨y, hy, he⟩ := List.mem_map.mp hm
            injection he with e1 e2
            have hy0 : lookup C.args y.1 = some y.2 := lookup_mem hC hy
            have hy2 : y.2 = x.2 := by rw [e1, hx0] at hy0; injection hy0 with h; exact h.symm
            dsimp only at hd
            rw [hx0, ← e2, e1, hy2, hv] at hd
            simp at hd
          · rw [lookup_mem (v := (lookup kw x.1).getD x.2)]
            · rfl
            · exact (List.filter_sublist.map _).nodup hkeys
            · refine List.mem_filter.mpr ⟨List.mem_map.mpr ⟨x, hx, rfl⟩, ?_⟩
              dsimp only
              rw [hx0]
              simp only [ne_eq, Option.some.injEq, decide_eq_true_eq]
              exact fun e => hv e.symm
      · intro hc
        obtain ⟨e, he, hne⟩ := List.any_eq_true.mp hc
        obtain ⟨hm, -⟩ := List.mem_filter.mp he
        obtain ⟨y, hy, rfl⟩ := List.mem_map.mp hm
        rw [Bool.not_eq_true', List.any_eq_false] at hne
        exact hne y hy (by simp)
    · unfold initC Comp.full
      rw [if_neg]
      · congr 2
        refine List.map_congr_left fun x hx => ?_
        rw [lookup_mem hkeys (List.mem_map.mpr ⟨x, hx, rfl⟩)]
        rfl
      · intro hc
        obtain ⟨e, he, hne⟩ := List.any_eq_true.mp hc
        obtain ⟨y, hy, rfl⟩ := List.mem_map.mp he
        rw [Bool.not_eq_true', List.any_eq_false] at hne
        exact hne y hy (by simp)

/-! ### `QuantumDerivative` -/

/-- a derivative: the operand, the ordered tuples of orders and of values -/
structure Deriv (O S V : Type) where
  op : O
  derivs : List (S × ℤ)
  vals : List (S × V)
  deriving DecidableEq

/-- `QuantumDerivative.__init__` (`abstract_quantum_algebra.py` 706-733); `leS` compares the texts of the symbols (`_dict_to_ordered_tuple`, lines 753-757).
`none`: `vals=None`. Symbols are SymPy symbols; the orders are integers. -/
def initD {O S V : Type} [DecidableEq S] (leS : S → S → Bool) (op : O) (derivs : List (S × ℤ)) (vals : Option (List (S × V))) : Except Err (Deriv O S V) :=
  if (dictOf derivs).any (fun e => e.2 ≤ 0) then .error .valueError
  else if (dictOf (vals.getD [])).any (fun e => !((dictOf derivs).any fun x => x.1 = e.1)) then .error .valueError
  else .ok ⟨op, isort (fun x y => leS x.1 y.1) (dictOf derivs), isort (fun x y => leS x.1 y.1) (dictOf (vals.getD []))⟩

/-- `kwargs` (lines 738-742): `self._ordered_vals or None` -/
def Deriv.fullVals {O S V : Type} (d : Deriv O S V) : Option (List (S × V)) := if d.vals = [] then none else some d.vals

theorem sort_dict_fixed {K V : Type} [DecidableEq K] (leS : K → K → Bool) (htrans : ∀ a b c, leS a b → leS b c → leS a c) (htotal : ∀ a b, (leS a b || leS b a) = true) (l : List (K × V)) :
    let s := isort (fun x y : K × V => leS x.1 y.1) (dictOf l)
    dictOf s = s ∧ isort (fun x y : K × V => leS x.1 y.1) s = s := by
  intro s
  exact ⟨dictOf_nodup _ (((isort_perm _ (dictOf l)).map _).nodup_iff.mpr (dictOf_keys l)), isort_of_sorted _ (isort_pairwise (fun a b c => htrans a.1 b.1 c.1) (fun a b => htotal a.1 b.1) _)⟩

/-- A derivative is rebuilt from `args` and `kwargs`; `minimal_kwargs` are the same without `vals=None`, which is the default. -/
theorem C72_derivative {O S V : Type} [DecidableEq S] (leS : S → S → Bool) (htrans : ∀ a b c, leS a b → leS b c → leS a c) (htotal : ∀ a b, (leS a b || leS b a) = true)
    {op : O} {derivs : List (S × ℤ)} {vals : Option (List (S × V))} {d : Deriv O S V} (h : initD leS op derivs vals = .ok d) : initD leS d.op d.derivs d.fullVals = .ok d := by
  unfold initD at h
  split at h
  · cases h
  · next h1 =>
    split at h
    · cases h
    · next h2 =>
      injection h with h
      subst h
      obtain ⟨a1, a2⟩ := sort_dict_fixed leS htrans htotal derivs
      obtain ⟨b1, b2⟩ := sort_dict_fixed leS htrans htotal (vals.getD [])
      have hf : (Deriv.fullVals (⟨op, isort (fun x y => leS x.1 y.1) (dictOf derivs), isort (fun x y => leS x.1 y.1) (dictOf (vals.getD []))⟩ : Deriv O S V)).getD [] =
          isort (fun x y => leS x.1 y.1) (dictOf (vals.getD [])) := by
        unfold Deriv.fullVals
        dsimp only
        split
        · next he => rw [he]; rfl
        · rfl
      have p1 := isort_perm (fun x y : S × ℤ => leS x.1 y.1) (dictOf derivs)
      have p2 := isort_perm (fun x y : S × V => leS x.1 y.1) (dictOf (vals.getD []))
      unfold initD
      rw [hf]
      dsimp only
      rw [a1, b1, a2, b2, if_neg, if_neg]
      · intro hc
        refine h2 ?_
        obtain ⟨e, he, hne⟩ := List.any_eq_true.mp hc
        refine List.any_eq_true.mpr ⟨e, p2.mem_iff.mp he, ?_⟩
        rw [Bool.not_eq_true', List.any_eq_false] at hne ⊢
        exact fun x hx => hne x (p1.mem_iff.mpr hx)
      · intro hc
        refine h1 ?_
        obtain ⟨e, he, hne⟩ := List.any_eq_true.mp hc
        exact List.any_eq_true.mpr ⟨e, p1.mem_iff.mp he, hne⟩

/-! ### `OperatorPlusMinusCC` -/

/-- `kwargs` (lines 697-701) -/
def pmFull (sign : ℤ) : ℤ := if sign > 0 then 1 else -1
/-- `minimal_kwargs` (lines 703-708); `none`: without `sign`, whose default is `+1` -/
def pmMinimal (sign : ℤ) : Option ℤ := if sign = 1 then none else some (pmFull sign)

/-- "an operator plus or minus its complex conjugate": for the two signs, the object is rebuilt with the same sign -/
theorem C72_plus_minus {sign : ℤ} (h : sign = 1 ∨ sign = -1) : pmFull sign = sign ∧ (pmMinimal sign).getD 1 = sign := by
  rcases h with rfl | rfl <;> decide

/-! ### Examples -/

/-- comparison of pairs of strings -/
def lePair (a b : Str × Str) : Bool := if a.1 = b.1 then decide (a.2 ≤ b.2) else decide (a.1 < b.1)

/-- `LocalSpace('1', dimension=2)` has the labels `'0', '1'` and is shown as `LocalSpace('1', dimension=2)` -/
example : (initL (fun _ => true) (fun n => n.repr.toList) lePair ⟨['1'], none, some 2, none, none⟩).map (fun s => (s.basis, s.minimal)) =
    .ok (some [['0'], ['1']], ⟨['1'], none, some 2, none, none⟩) := by decide +kernel

/-- a component with two arguments, one of which is given -/
example : (initC (⟨['B', 'S'], [(['a'], 1), (['b'], 2)]⟩ : CClass ℕ) none [(['b'], 5)]).map (fun c => (c.full, c.minimal ⟨['B', 'S'], [(['a'], 1), (['b'], 2)]⟩)) =
    .ok ((some ['B', 'S'], [(['a'], 1), (['b'], 5)]), (none, [(['b'], 5)])) := by decide +kernel

/-- a derivative with respect to two symbols, in the order of their texts, evaluated at one of them -/
example : initD (fun a b : ℕ => decide (a ≤ b)) () [(2, 1), (1, 3)] (some [(2, 7)]) = .ok (⟨(), [(1, 3), (2, 1)], [(2, 7)]⟩ : Deriv Unit ℕ ℕ) := by decide +kernel

/-- `SpinSpace(label='s', spin='1/2', basis=('down', 'up'))`, from the documentation of the class -/
def downUp : SArgs := ⟨['s'], 1/2, some [['d', 'o', 'w', 'n'], ['u', 'p']], none, none⟩

/-- how the spin quantum numbers of a spin 1/2 are shown -/
def renderHalf (q : ℚ) : Str := if 0 < q then ['+', '1', '/', '2'] else ['-', '1', '/', '2']

/-- A `SpinSpace` with custom labels loses them: the space that is rebuilt from `args` and `kwargs` (by `substitute` or `rebuild`) or `minimal_kwargs` (by `srepr`) is not equal to the original. -/
theorem C72_refuted_spinspace : ∃ s s', initS (fun _ => true) (fun n => n.repr.toList) lePair renderHalf downUp = .ok s ∧
    initS (fun _ => true) (fun n => n.repr.toList) lePair renderHalf s.full = .ok s' ∧ initS (fun _ => true) (fun n => n.repr.toList) lePair renderHalf s.minimal = .ok { s' with space := { s'.space with kIds := false } } ∧
    ¬ s'.space.Same s.space ∧ s.space.basis = some [['d', 'o', 'w', 'n'], ['u', 'p']] ∧ s'.space.basis = some [['-', '1', '/', '2'], ['+', '1', '/', '2']] := by
  refine ⟨⟨1/2, ⟨['s'], some [['d', 'o', 'w', 'n'], ['u', 'p']], some 2, [], none, true, true, false, false⟩⟩,
    ⟨1/2, ⟨['s'], some [['-', '1', '/', '2'], ['+', '1', '/', '2']], some 2, [], none, true, true, true, false⟩⟩, ?_, ?_, ?_, ?_, rfl, rfl⟩
  · decide +kernel
  · decide +kernel
  · decide +kernel
  · intro h; exact absurd h.2.1 (by decide)

end QNET.Kwargs
