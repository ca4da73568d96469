import Mathlib.Data.Rat.Defs
import Mathlib.Algebra.Order.Ring.Rat

/-!
# Model of `KeyTuple` (src/qnet/utils/ordering.py lines 38-63)
-/

namespace QNET.Order

/-- Python strings -/
abbrev Str := List Char

/-- comparison of strings by code points -/
def scmp : Str → Str → Ordering
  | [], [] => .eq
  | [], _ :: _ => .lt
  | _ :: _, [] => .gt
  | a :: l, b :: m => if a.toNat < b.toNat then .lt else if b.toNat < a.toNat then .gt else scmp l m

/-- Python's `<` on strings -/
def slt (a b : Str) : Bool := scmp a b == .lt

/-- The Python objects that occur inside order keys. `num` is an `int` or `float`, `inf` is `float('inf')`, `opaque s` is an object
without an order relation and with `str(obj) = s` (`None`, complex numbers, symbols: comparing them with anything raises `TypeError`),
`tup` is a plain tuple, `key` a `KeyTuple`. -/
inductive KV where
  | num (q : ℚ)
  | inf
  | str (s : Str)
  | opaque (s : Str)
  | tup (l : List KV)
  | key (l : List KV)

mutual
/-- Python's `==`. Simplification: a `KeyTuple` is not compared with a plain tuple. -/
def veq : KV → KV → Bool
  | .num a, .num b => a = b
  | .inf, .inf => true
  | .str a, .str b => a = b
  | .opaque a, .opaque b => a = b
  | .tup a, .tup b => leq a b
  | .key a, .key b => leq a b
  | _, _ => false
/-- elementwise equality -/
def leq : List KV → List KV → Bool
  | [], [] => true
  | a :: l, b :: m => veq a b && leq l m
  | _, _ => false
end

mutual
/-- `str(x)`. Simplification: quotes are not escaped, floats are printed as fractions. -/
def pyStr : KV → Str
  | .num q => (if q.num < 0 then ['-'] else []) ++ Nat.toDigits 10 q.num.natAbs ++ (if q.den = 1 then [] else '/' :: Nat.toDigits 10 q.den)
  | .inf => ['i', 'n', 'f']
  | .str s => s
  | .opaque s => s
  | .tup l => '(' :: (reprList l ++ [')'])
  | .key l => ['K', 'e', 'y', 'T', 'u', 'p', 'l', 'e', '('] ++ reprList l ++ [')']
/-- `repr(x)` for the elements of a tuple -/
def reprList : List KV → Str
  | [] => []
  | .str s :: l => '\'' :: (s ++ ['\'', ',', ' '] ++ reprList l)
  | a :: l => pyStr a ++ [',', ' '] ++ reprList l
end

mutual
/-- Python's `a < b` for elements of a key; `none` is `TypeError`. For two `KeyTuple`s this is `KeyTuple.__lt__`, for two plain tuples
it is the comparison of the first elements that are not equal. -/
def vlt : KV → KV → Option Bool
  | .num a, .num b => some (a < b)
  | .num _, .inf => some true
  | .inf, .num _ => some false
  | .inf, .inf => some false
  | .str a, .str b => some (slt a b)
  | .tup a, .tup b => tlt a b
  | .key a, .key b => some (klt a b)
  | _, _ => none
/-- Python's `a > b`; `KeyTuple` does not define `__gt__`, so this is the comparison of plain tuples also for `KeyTuple`s. -/
def vgt : KV → KV → Option Bool
  | .num a, .num b => some (b < a)
  | .num _, .inf => some false
  | .inf, .num _ => some true
  | .inf, .inf => some false
  | .str a, .str b => some (slt b a)
  | .tup a, .tup b => tgt a b
  | .key a, .key b => tgt a b
  | _, _ => none
/-- `tuple.__lt__` -/
def tlt : List KV → List KV → Option Bool
  | [], [] => some false
  | [], _ :: _ => some true
  | _ :: _, [] => some false
  | a :: l, b :: m => if veq a b then tlt l m else vlt a b
/-- `tuple.__gt__` -/
def tgt : List KV → List KV → Option Bool
  | [], [] => some false
  | [], _ :: _ => some false
  | _ :: _, [] => some true
  | a :: l, b :: m => if veq a b then tgt l m else vgt a b
/-- `KeyTuple.__lt__`, ordering.py lines 42-60 (the result `None` counts as false). -/
def klt : List KV → List KV → Bool
  | [], [] => false
  | [], _ :: _ => true
  | _ :: _, [] => false
  | a :: l, b :: m =>
    -- `if a < b: return True elif a > b: return False`, falling back to strings on `TypeError`
    match vlt a b with
    | some true => true
    | some false =>
      match vgt a b with
      | some true => false
      | some false => klt l m
      | none => if slt (pyStr a) (pyStr b) then true else if slt (pyStr b) (pyStr a) then false else klt l m
    | none => if slt (pyStr a) (pyStr b) then true else if slt (pyStr b) (pyStr a) then false else klt l m
end

mutual
/-- Specification: two elements of nested tuples can be compared: they are of the same kind, nested tuples being compared up to their
first difference. -/
def Comparable : KV → KV → Prop
  | .num _, .num _ => True
  | .num _, .inf => True
  | .inf, .num _ => True
  | .inf, .inf => True
  | .str _, .str _ => True
  | .opaque a, .opaque b => a = b
  | .tup a, .tup b => ComparableL a b
  | .key a, .key b => ComparableL a b
  | _, _ => False
/-- Specification: corresponding elements can be compared, up to the first difference. -/
def ComparableL : List KV → List KV → Prop
  | [], _ => True
  | _ :: _, [] => True
  | a :: l, b :: m => Comparable a b ∧ (a = b → ComparableL l m)
end

/-- Specification: two order keys can be compared: up to the first difference, corresponding elements are of the same kind (at the top
level, objects without an order relation are compared as strings). -/
def ComparableKeys : List KV → List KV → Prop
  | [], _ => True
  | _ :: _, [] => True
  | a :: l, b :: m => (Comparable a b ∨ ∃ s t, a = .opaque s ∧ b = .opaque t) ∧ (a = b → ComparableKeys l m)

/-! ### the lexicographic comparison -/

mutual
/-- lexicographic comparison; `none` for elements of different kinds -/
def cmp : KV → KV → Option Ordering
  | .num a, .num b => some (if a < b then .lt else if b < a then .gt else .eq)
  | .num _, .inf => some .lt
  | .inf, .num _ => some .gt
  | .inf, .inf => some .eq
  | .str a, .str b => some (scmp a b)
  | .opaque a, .opaque b => if a = b then some .eq else none
  | .tup a, .tup b => cmpL a b
  | .key a, .key b => cmpL a b
  | _, _ => none
/-- lexicographic comparison of lists -/
def cmpL : List KV → List KV → Option Ordering
  | [], [] => some .eq
  | [], _ :: _ => some .lt
  | _ :: _, [] => some .gt
  | a :: l, b :: m =>
    match cmp a b with
    | some .eq => cmpL l m
    | r => r
end

theorem scmp_eq_iff : ∀ a b : Str, scmp a b = .eq ↔ a = b
  | [], b => by cases b <;> simp [scmp]
  | a :: l, b => by
    cases b with
    | nil => simp [scmp]
    | cons b m =>
      have := scmp_eq_iff l m
      rw [scmp]
      rcases Nat.lt_trichotomy a.toNat b.toNat with h | h | h
      · have : a ≠ b := by rintro rfl; omega
        simp [h, this]
      · have : a = b := Char.toNat_inj.mp h
        subst this
        simp [scmp_eq_iff l m]
      · have : a ≠ b := by rintro rfl; omega
        simp [h, this, Nat.not_lt.mpr h.le]

theorem scmp_swap : ∀ a b : Str, scmp b a = (scmp a b).swap
  | [], b => by cases b <;> simp [scmp]
  | a :: l, b => by
    cases b with
    | nil => simp [scmp]
    | cons b m =>
      rw [scmp, scmp]
      rcases Nat.lt_trichotomy a.toNat b.toNat with h | h | h
      · simp [h, Nat.not_lt.mpr h.le]
      · simp [h, scmp_swap l m]
      · simp [h, Nat.not_lt.mpr h.le]

theorem scmp_trans : ∀ a b c : Str, scmp a b = .lt → scmp b c = .lt → scmp a c = .lt
  | [], b, c => by cases b <;> cases c <;> simp [scmp]
  | a :: l, b, c => by
    cases b with
    | nil => simp [scmp]
    | cons b m =>
      cases c with
      | nil => simp [scmp]
      | cons c n =>
        have := scmp_trans l m n
        simp only [scmp]
        split
        · split
          · intro _ _; rw [if_pos (by omega)]
          · split
            · simp
            · intro _ _; rw [if_pos (by omega)]
        · split
          · simp
          · split
            · intro _ _; rw [if_pos (by omega)]
            · split
              · simp
              · rw [if_neg (by omega), if_neg (by omega)]; exact this

/-- lexicographic comparison of keys -/
def cmpK : List KV → List KV → Option Ordering
  | [], [] => some .eq
  | [], _ :: _ => some .lt
  | _ :: _, [] => some .gt
  | .opaque s :: l, .opaque t :: m =>
    match scmp s t with
    | .eq => cmpK l m
    | r => some r
  | a :: l, b :: m =>
    match cmp a b with
    | some .eq => cmpK l m
    | r => r

mutual
theorem veq_iff : ∀ a b : KV, veq a b = true ↔ a = b
  | .num a, b => by cases b <;> simp [veq]
  | .inf, b => by cases b <;> simp [veq]
  | .str a, b => by cases b <;> simp [veq]
  | .opaque a, b => by cases b <;> simp [veq]
  | .tup a, b => by cases b <;> simp [veq, leq_iff a]
  | .key a, b => by cases b <;> simp [veq, leq_iff a]
theorem leq_iff : ∀ a b : List KV, leq a b = true ↔ a = b
  | [], b => by cases b <;> simp [leq]
  | a :: l, b => by cases b <;> simp [leq, veq_iff a, leq_iff l]
end

theorem ord_eq_iff {α : Type} [LinearOrder α] (a b : α) :
    (if a < b then Ordering.lt else if b < a then .gt else .eq) = .eq ↔ a = b := by
  rcases lt_trichotomy a b with h | h | h
  · simp [h, h.ne]
  · simp [h]
  · simp [h, h.not_gt, h.ne']

mutual
theorem cmp_eq_iff : ∀ a b : KV, cmp a b = some .eq ↔ a = b
  | .num a, b => by cases b <;> simp [cmp, ord_eq_iff]
  | .inf, b => by cases b <;> simp [cmp]
  | .str a, b => by cases b <;> simp [cmp, scmp_eq_iff]
  | .opaque a, b => by cases b <;> simp [cmp]
  | .tup a, b => by cases b <;> simp [cmp, cmpL_eq_iff a]
  | .key a, b => by cases b <;> simp [cmp, cmpL_eq_iff a]
theorem cmpL_eq_iff : ∀ a b : List KV, cmpL a b = some .eq ↔ a = b
  | [], b => by cases b <;> simp [cmpL]
  | a :: l, b => by
    cases b with
    | nil => simp [cmpL]
    | cons b m =>
      have h1 := cmp_eq_iff a b
      have h2 := cmpL_eq_iff l m
      rw [cmpL]
      constructor
      · intro h
        split at h
        · rename_i h'
          rw [h1.mp h', h2.mp h]
        · rename_i h'; exact absurd h h'
      · intro h
        injection h with ha hl
        rw [h1.mpr ha]; exact h2.mpr hl
end

mutual
theorem cmp_some_iff : ∀ a b : KV, Comparable a b ↔ ∃ o, cmp a b = some o
  | .num a, b => by cases b <;> simp [cmp, Comparable]
  | .inf, b => by cases b <;> simp [cmp, Comparable]
  | .str a, b => by cases b <;> simp [cmp, Comparable]
  | .opaque a, b => by cases b <;> simp [cmp, Comparable]
  | .tup a, b => by cases b <;> simp [cmp, Comparable, cmpL_some_iff a]
  | .key a, b => by cases b <;> simp [cmp, Comparable, cmpL_some_iff a]
theorem cmpL_some_iff : ∀ a b : List KV, ComparableL a b ↔ ∃ o, cmpL a b = some o
  | [], b => by cases b <;> simp [cmpL, ComparableL]
  | a :: l, b => by
    cases b with
    | nil => simp [cmpL, ComparableL]
    | cons b m =>
      have h1 := cmp_some_iff a b
      have h2 := cmpL_some_iff l m
      rw [cmpL, ComparableL, h1, h2]
      have h3 := cmp_eq_iff a b
      cases hc : cmp a b with
      | none => simp
      | some o =>
        cases o with
        | eq => simp [h3.mp hc]
        | lt =>
          have : a ≠ b := fun h => by rw [h3.mpr h] at hc; cases hc
          simp [this]
        | gt =>
          have : a ≠ b := fun h => by rw [h3.mpr h] at hc; cases hc
          simp [this]
end

theorem ord_swap {α : Type} [LinearOrder α] (a b : α) :
    (if a < b then Ordering.lt else if b < a then .gt else .eq).swap = (if b < a then .lt else if a < b then .gt else .eq) := by
  rcases lt_trichotomy a b with h | h | h
  · simp [h, h.not_gt]
  · simp [h]
  · simp [h, h.not_gt]

mutual
theorem cmp_swap : ∀ a b : KV, cmp b a = (cmp a b).map Ordering.swap
  | .num a, b => by cases b <;> simp [cmp, ord_swap]
  | .inf, b => by cases b <;> simp [cmp]
  | .str a, b => by cases b <;> simp [cmp, scmp_swap a]
  | .opaque a, b => by
    cases b <;> simp [cmp]
    rename_i b
    by_cases h : a = b
    · simp [h]
    · simp [h, Ne.symm h]
  | .tup a, b => by cases b <;> simp [cmp, cmpL_swap a]
  | .key a, b => by cases b <;> simp [cmp, cmpL_swap a]
theorem cmpL_swap : ∀ a b : List KV, cmpL b a = (cmpL a b).map Ordering.swap
  | [], b => by cases b <;> simp [cmpL]
  | a :: l, b => by
    cases b with
    | nil => simp [cmpL]
    | cons b m =>
      rw [cmpL, cmpL, cmp_swap a b]
      cases cmp a b with
      | none => rfl
      | some o => cases o <;> simp [cmpL_swap l m]
end

theorem ord_lt_iff {α : Type} [LinearOrder α] (a b : α) :
    (if a < b then Ordering.lt else if b < a then .gt else .eq) = .lt ↔ a < b := by
  rcases lt_trichotomy a b with h | h | h
  · simp [h]
  · simp [h]
  · simp [h, h.not_gt]

mutual
theorem cmp_trans : ∀ a b c : KV, cmp a b = some .lt → cmp b c = some .lt → cmp a c = some .lt
  | .num a, b, c => by
    cases b <;> cases c <;> simp only [cmp, Option.some.injEq, ord_lt_iff, reduceCtorEq, false_implies, implies_true]
    exact fun h1 h2 => h1.trans h2
  | .inf, b, c => by cases b <;> cases c <;> simp [cmp]
  | .str a, b, c => by
    cases b <;> cases c <;> simp [cmp]
    exact scmp_trans _ _ _
  | .opaque a, b, c => by
    cases b <;> cases c <;> simp [cmp]
  | .tup a, b, c => by
    cases b <;> cases c <;> simp [cmp]
    exact cmpL_trans a _ _
  | .key a, b, c => by
    cases b <;> cases c <;> simp [cmp]
    exact cmpL_trans a _ _
theorem cmpL_trans : ∀ a b c : List KV, cmpL a b = some .lt → cmpL b c = some .lt → cmpL a c = some .lt
  | [], b, c => by cases b <;> cases c <;> simp [cmpL]
  | a :: l, b, c => by
    cases b with
    | nil => simp [cmpL]
    | cons b m =>
      cases c with
      | nil => simp [cmpL]
      | cons c n =>
        rw [cmpL, cmpL, cmpL]
        intro h1 h2
        split at h1
        · rename_i e1
          rw [(cmp_eq_iff a b).mp e1]
          split at h2
          · rename_i e2
            exact cmpL_trans l m n h1 h2
          · rename_i e2; rw [h2]
        · rename_i e1
          split at h2
          · rename_i e2
            rw [← (cmp_eq_iff b c).mp e2, h1]
          · rename_i e2
            rw [cmp_trans a b c h1 h2]
end

/-! ### `KeyTuple.__lt__` is the lexicographic comparison on comparable keys -/

theorem slt_of {a b : Str} {o : Ordering} (h : scmp a b = o) : slt a b = (o == .lt) ∧ slt b a = (o == .gt) := by
  subst h
  refine ⟨rfl, ?_⟩
  rw [slt, scmp_swap a b]
  cases scmp a b <;> rfl

theorem scmp_self (a : Str) : scmp a a = .eq := (scmp_eq_iff a a).mpr rfl
theorem slt_self (a : Str) : slt a a = false := by rw [slt, scmp_self]; rfl

mutual
theorem vlt_self : ∀ a : KV, (vlt a a = some false ∨ vlt a a = none) ∧ (vgt a a = some false ∨ vgt a a = none)
  | .num a => by simp [vlt, vgt]
  | .inf => by simp [vlt, vgt]
  | .str a => by simp [vlt, vgt, slt_self]
  | .opaque a => by simp [vlt, vgt]
  | .tup a => by simp [vlt, vgt, tlt_self a]
  | .key a => by simp [vlt, vgt, klt_self a, tlt_self a]
theorem tlt_self : ∀ a : List KV, tlt a a = some false ∧ tgt a a = some false
  | [] => by simp [tlt, tgt]
  | a :: l => by simp [tlt, tgt, (veq_iff a a).mpr rfl, tlt_self l]
theorem klt_self : ∀ a : List KV, klt a a = false
  | [] => by simp [klt]
  | a :: l => by
    rw [klt]
    rcases vlt_self a with ⟨h1 | h1, h2 | h2⟩ <;> simp [h1, h2, slt_self, klt_self l]
end

theorem klt_same (a : KV) (l m : List KV) : klt (a :: l) (a :: m) = klt l m := by
  rw [klt]
  rcases vlt_self a with ⟨h1 | h1, h2 | h2⟩ <;> simp [h1, h2, slt_self]

mutual
theorem vlt_of_cmp : ∀ (a b : KV) (o : Ordering), cmp a b = some o → o ≠ .eq → vlt a b = some (o == .lt) ∧ vgt a b = some (o == .gt)
  | .num a, b, o => by
    cases b <;> simp [cmp, vlt, vgt]
    · intro h; subst h
      rename_i b
      rcases lt_trichotomy a b with h | h | h
      · simp [h, h.not_gt]
      · simp [h]
      · simp [h, h.not_gt]
    · rintro rfl; simp
  | .inf, b, o => by cases b <;> simp [cmp, vlt, vgt] <;> rintro rfl <;> simp
  | .str a, b, o => by
    cases b <;> simp [cmp, vlt, vgt]
    intro h _
    exact slt_of h
  | .opaque a, b, o => by
    cases b <;> simp [cmp, vlt, vgt]
    rintro _ rfl; simp
  | .tup a, b, o => by
    cases b <;> simp [cmp, vlt, vgt]
    intro h _
    exact tlt_of_cmp a _ o h
  | .key a, b, o => by
    cases b <;> simp [cmp, vlt, vgt]
    intro h _
    exact ⟨klt_of_cmp a _ o h, (tlt_of_cmp a _ o h).2⟩
theorem klt_of_cmp : ∀ (a b : List KV) (o : Ordering), cmpL a b = some o → klt a b = (o == .lt)
  | [], b, o => by cases b <;> simp [cmpL, klt] <;> rintro rfl <;> simp
  | a :: l, b, o => by
    cases b with
    | nil => simp [cmpL, klt]; rintro rfl; simp
    | cons b m =>
      rw [cmpL]
      intro h
      by_cases hab : a = b
      · subst hab
        rw [(cmp_eq_iff a a).mpr rfl] at h
        rw [klt_same]; exact klt_of_cmp l m o h
      · have hne : cmp a b ≠ some .eq := fun h => hab ((cmp_eq_iff a b).mp h)
        have h' : cmp a b = some o := by
          cases hc : cmp a b with
          | none => rw [hc] at h; cases h
          | some o' => cases o' <;> simp_all
        have ho : o ≠ .eq := by rintro rfl; exact hne h'
        obtain ⟨e1, e2⟩ := vlt_of_cmp a b o h' ho
        rw [klt, e1, e2]
        cases o <;> simp_all
theorem tlt_of_cmp : ∀ (a b : List KV) (o : Ordering), cmpL a b = some o → tlt a b = some (o == .lt) ∧ tgt a b = some (o == .gt)
  | [], b, o => by cases b <;> simp [cmpL, tlt, tgt] <;> rintro rfl <;> simp
  | a :: l, b, o => by
    cases b with
    | nil => simp [cmpL, tlt, tgt]; rintro rfl; simp
    | cons b m =>
      rw [cmpL]
      intro h
      by_cases hab : a = b
      · subst hab
        rw [(cmp_eq_iff a a).mpr rfl] at h
        rw [tlt, tgt, if_pos ((veq_iff a a).mpr rfl), if_pos ((veq_iff a a).mpr rfl)]; exact tlt_of_cmp l m o h
      · have hne : cmp a b ≠ some .eq := fun h => hab ((cmp_eq_iff a b).mp h)
        have h' : cmp a b = some o := by
          cases hc : cmp a b with
          | none => rw [hc] at h; cases h
          | some o' => cases o' <;> simp_all
        have ho : o ≠ .eq := by rintro rfl; exact hne h'
        have hv : ¬ veq a b = true := fun h => hab ((veq_iff a b).mp h)
        rw [tlt, tgt, if_neg hv, if_neg hv]
        exact vlt_of_cmp a b o h' ho
end

/-! ### whole keys -/

/-- comparison of the elements at the top level -/
def cmpT : KV → KV → Option Ordering
  | .opaque s, .opaque t => some (scmp s t)
  | a, b => cmp a b

theorem cmpK_cons (a b : KV) (l m : List KV) : cmpK (a :: l) (b :: m) =
    match cmpT a b with
    | some .eq => cmpK l m
    | r => r := by
  cases a <;> cases b <;> simp [cmpK, cmpT]
  cases scmp _ _ <;> rfl

theorem cmpT_eq_iff (a b : KV) : cmpT a b = some .eq ↔ a = b := by
  have := cmp_eq_iff a b
  cases a <;> cases b <;> simp_all [cmpT, scmp_eq_iff]

theorem cmpT_swap (a b : KV) : cmpT b a = (cmpT a b).map Ordering.swap := by
  by_cases hop : ∃ s t, a = .opaque s ∧ b = .opaque t
  · obtain ⟨s, t, rfl, rfl⟩ := hop
    simp only [cmpT, Option.map_some]
    rw [scmp_swap s t]
  · have := cmp_swap a b
    cases a <;> cases b <;> first | exact this | simp at hop

theorem cmpT_trans (a b c : KV) (h1 : cmpT a b = some .lt) (h2 : cmpT b c = some .lt) : cmpT a c = some .lt := by
  have := cmp_trans a b c
  cases a <;> cases b <;> simp_all [cmpT] <;> cases c <;> simp_all [cmpT, cmp]
  exact scmp_trans _ _ _ h1 h2

theorem cmpT_some_iff (a b : KV) : (Comparable a b ∨ ∃ s t, a = .opaque s ∧ b = .opaque t) ↔ ∃ o, cmpT a b = some o := by
  have := cmp_some_iff a b
  cases a <;> cases b <;> simp_all [cmpT]

theorem klt_cons_of {a b : KV} {o : Ordering} (l m : List KV) (h : cmpT a b = some o) (ho : o ≠ .eq) : klt (a :: l) (b :: m) = (o == .lt) := by
  rw [klt]
  by_cases hop : ∃ s t, a = .opaque s ∧ b = .opaque t
  · obtain ⟨s, t, rfl, rfl⟩ := hop
    simp only [cmpT, Option.some.injEq] at h
    obtain ⟨e1, e2⟩ := slt_of h
    simp only [vlt, pyStr, e1, e2]
    cases o <;> simp_all
  · have h' : cmp a b = some o := by
      cases a <;> cases b <;> simp_all [cmpT]
    obtain ⟨e1, e2⟩ := vlt_of_cmp a b o h' ho
    rw [e1, e2]
    cases o <;> simp_all

theorem cmpK_eq_iff : ∀ a b : List KV, cmpK a b = some .eq ↔ a = b
  | [], b => by cases b <;> simp [cmpK]
  | a :: l, b => by
    cases b with
    | nil => simp [cmpK]
    | cons b m =>
      have h1 := cmpT_eq_iff a b
      have h2 := cmpK_eq_iff l m
      rw [cmpK_cons]
      constructor
      · intro h
        split at h
        · rename_i h'
          rw [h1.mp h', h2.mp h]
        · rename_i h'; exact absurd h h'
      · intro h
        injection h with ha hl
        rw [h1.mpr ha]; exact h2.mpr hl

theorem cmpK_some_iff : ∀ a b : List KV, ComparableKeys a b ↔ ∃ o, cmpK a b = some o
  | [], b => by cases b <;> simp [cmpK, ComparableKeys]
  | a :: l, b => by
    cases b with
    | nil => simp [cmpK, ComparableKeys]
    | cons b m =>
      have h1 := cmpT_some_iff a b
      have h2 := cmpK_some_iff l m
      rw [cmpK_cons, ComparableKeys, h1, h2]
      have h3 := cmpT_eq_iff a b
      cases hc : cmpT a b with
      | none => simp
      | some o =>
        cases o with
        | eq => simp [h3.mp hc]
        | lt =>
          have : a ≠ b := fun h => by rw [h3.mpr h] at hc; cases hc
          simp [this]
        | gt =>
          have : a ≠ b := fun h => by rw [h3.mpr h] at hc; cases hc
          simp [this]

theorem cmpK_swap : ∀ a b : List KV, cmpK b a = (cmpK a b).map Ordering.swap
  | [], b => by cases b <;> simp [cmpK]
  | a :: l, b => by
    cases b with
    | nil => simp [cmpK]
    | cons b m =>
      rw [cmpK_cons, cmpK_cons, cmpT_swap a b]
      cases cmpT a b with
      | none => rfl
      | some o => cases o <;> simp [cmpK_swap l m]

theorem cmpK_trans : ∀ a b c : List KV, cmpK a b = some .lt → cmpK b c = some .lt → cmpK a c = some .lt
  | [], b, c => by cases b <;> cases c <;> simp [cmpK]
  | a :: l, b, c => by
    cases b with
    | nil => simp [cmpK]
    | cons b m =>
      cases c with
      | nil => simp [cmpK]
      | cons c n =>
        rw [cmpK_cons, cmpK_cons, cmpK_cons]
        intro h1 h2
        split at h1
        · rename_i e1
          rw [(cmpT_eq_iff a b).mp e1]
          split at h2
          · rename_i e2
            exact cmpK_trans l m n h1 h2
          · rename_i e2; rw [h2]
        · rename_i e1
          split at h2
          · rename_i e2
            rw [← (cmpT_eq_iff b c).mp e2, h1]
          · rename_i e2
            rw [cmpT_trans a b c h1 h2]

/-- on comparable keys, `KeyTuple.__lt__` is the lexicographic comparison -/
theorem klt_of_cmpK : ∀ (a b : List KV) (o : Ordering), cmpK a b = some o → klt a b = (o == .lt)
  | [], b, o => by cases b <;> simp [cmpK, klt] <;> rintro rfl <;> simp
  | a :: l, b, o => by
    cases b with
    | nil => simp [cmpK, klt]; rintro rfl; simp
    | cons b m =>
      rw [cmpK_cons]
      intro h
      by_cases hab : a = b
      · subst hab
        rw [(cmpT_eq_iff a a).mpr rfl] at h
        rw [klt_same]; exact klt_of_cmpK l m o h
      · have hne : cmpT a b ≠ some .eq := fun h => hab ((cmpT_eq_iff a b).mp h)
        have h' : cmpT a b = some o := by
          cases hc : cmpT a b with
          | none => rw [hc] at h; cases h
          | some o' => cases o' <;> simp_all
        have ho : o ≠ .eq := by rintro rfl; exact hne h'
        exact klt_cons_of l m h' ho

/-! ### the order on comparable keys -/

theorem comparableKeys_symm {a b : List KV} (h : ComparableKeys a b) : ComparableKeys b a := by
  rw [cmpK_some_iff] at *
  obtain ⟨o, h⟩ := h
  exact ⟨_, by rw [cmpK_swap, h]; rfl⟩

theorem klt_iff {a b : List KV} (h : ComparableKeys a b) : klt a b = true ↔ cmpK a b = some .lt := by
  obtain ⟨o, ho⟩ := (cmpK_some_iff a b).mp h
  rw [klt_of_cmpK a b o ho, ho]; cases o <;> simp

theorem klt_trans' {a b c : List KV} (hab : ComparableKeys a b) (hbc : ComparableKeys b c) (h1 : klt a b = true) (h2 : klt b c = true) :
    klt a c = true := by
  have := cmpK_trans a b c ((klt_iff hab).mp h1) ((klt_iff hbc).mp h2)
  exact klt_of_cmpK a c _ this

theorem klt_trichotomy {a b : List KV} (h : ComparableKeys a b) : klt a b = true ∨ a = b ∨ klt b a = true := by
  obtain ⟨o, ho⟩ := (cmpK_some_iff a b).mp h
  cases o with
  | lt => exact Or.inl (klt_of_cmpK a b _ ho)
  | eq => exact Or.inr (Or.inl ((cmpK_eq_iff a b).mp ho))
  | gt => exact Or.inr (Or.inr (klt_of_cmpK b a .lt (by rw [cmpK_swap, ho]; rfl)))

end QNET.Order
