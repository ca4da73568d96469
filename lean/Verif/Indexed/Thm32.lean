import Verif.Indexed.Model
import Mathlib.Tactic.Ring
import Mathlib.Tactic.Linarith
import Mathlib.Data.List.Nodup
import Mathlib.Algebra.BigOperators.Group.List.Lemmas
import Mathlib.Algebra.BigOperators.Ring.List

/-!
# C32: index ranges enumerate the Cartesian product exactly once
-/

namespace QNET.Indexed

/-! ### specification -/

/-- position tuples: one position for every list, within the list -/
def ValidPos {α : Type} : List (List α) → List ℕ → Prop
  | [], [] => True
  | l :: ls, p :: ps => p < l.length ∧ ValidPos ls ps
  | _, _ => False

/-- the items at a position tuple -/
def itemsAt {α : Type} : List (List α) → List ℕ → List α
  | l :: ls, p :: ps => (l[p]?).toList ++ itemsAt ls ps
  | _, _ => []

/-- rank of a position tuple when the last position runs fastest -/
def rank {α : Type} : List (List α) → List ℕ → ℕ
  | _ :: ls, p :: ps => p * (ls.map List.length).prod + rank ls ps
  | _, _ => 0

/-- lexicographic order of position tuples of the same length -/
def LexLt : List ℕ → List ℕ → Prop
  | p :: ps, q :: qs => p < q ∨ (p = q ∧ LexLt ps qs)
  | _, _ => False

/-! ### lists -/

variable {α : Type}

theorem product_length : ∀ ls : List (List α), (product ls).length = (ls.map List.length).prod
  | [] => rfl
  | l :: ls => by
    have h := product_length ls
    simp only [product, List.map_cons, List.prod_cons, ← h]
    induction l with
    | nil => simp
    | cons x l ih => simp only [List.flatMap_cons, List.length_append, List.length_map, List.length_cons, ih]; ring

/-- C32: the number of combinations is the product of the lengths. -/
theorem C32_length (ls : List (List α)) : (product ls).length = (ls.map List.length).prod := product_length ls

theorem rank_lt : ∀ (ls : List (List α)) (p : List ℕ), ValidPos ls p → rank ls p < (ls.map List.length).prod
  | [], [], _ => by simp [rank]
  | l :: ls, p :: ps, h => by
    have h1 := rank_lt ls ps h.2
    simp only [rank, List.map_cons, List.prod_cons]
    have : (p + 1) * (ls.map List.length).prod ≤ l.length * (ls.map List.length).prod := Nat.mul_le_mul_right _ h.1
    linarith [Nat.add_mul p 1 (ls.map List.length).prod]
  | [], _ :: _, h => h.elim
  | _ :: _, [], h => h.elim

theorem flatMap_getElem {β : Type} (m : List β) (g : α → β → List α) (n : ℕ) (hn : m.length = n) :
    ∀ (l : List α) (p k : ℕ) (x : α), l[p]? = some x → k < n → (l.flatMap (fun x => m.map (g x)))[p * n + k]? = (m[k]?).map (g x)
  | [], p, k, x, h, _ => by simp at h
  | y :: l, 0, k, x, h, hk => by
    simp only [List.getElem?_cons_zero, Option.some.injEq] at h
    subst h
    simp only [List.flatMap_cons, Nat.zero_mul, Nat.zero_add]
    rw [List.getElem?_append_left (by simpa [hn] using hk), List.getElem?_map]
  | y :: l, p + 1, k, x, h, hk => by
    have ih := flatMap_getElem m g n hn l p k x (by simpa using h) hk
    simp only [List.flatMap_cons]
    rw [List.getElem?_append_right (by simp [hn]; nlinarith)]
    rw [← ih]
    congr 1
    simp only [List.length_map, hn, Nat.add_mul, Nat.one_mul]
    omega

/-- C32: the combination at the position tuple `p` is yielded at the position `rank p`, i.e. in lexicographic order, the last index
running fastest. -/
theorem C32_position : ∀ (ls : List (List α)) (p : List ℕ), ValidPos ls p → (product ls)[rank ls p]? = some (itemsAt ls p)
  | [], [], _ => rfl
  | l :: ls, p :: ps, h => by
    have ih := C32_position ls ps h.2
    obtain ⟨x, hx⟩ : ∃ x, l[p]? = some x := ⟨l[p]'h.1, by simp⟩
    simp only [product, rank, itemsAt]
    rw [flatMap_getElem (product ls) (fun x y => x :: y) _ (product_length ls) l p _ x hx (rank_lt ls ps h.2), ih, hx]
    rfl
  | [], _ :: _, h => h.elim
  | _ :: _, [], h => h.elim

/-- C32: `rank` respects the lexicographic order. -/
theorem C32_lexicographic : ∀ (ls : List (List α)) (p q : List ℕ), ValidPos ls p → ValidPos ls q → (LexLt p q ↔ rank ls p < rank ls q)
  | [], [], [], _, _ => by simp [LexLt]
  | l :: ls, p :: ps, q :: qs, hp, hq => by
    have ih := C32_lexicographic ls ps qs hp.2 hq.2
    have h1 := rank_lt ls ps hp.2
    have h2 := rank_lt ls qs hq.2
    simp only [LexLt, rank]
    constructor
    · rintro (h | ⟨rfl, h⟩)
      · have : (p + 1) * (ls.map List.length).prod ≤ q * (ls.map List.length).prod := Nat.mul_le_mul_right _ h
        linarith [Nat.add_mul p 1 (ls.map List.length).prod]
      · have := ih.1 h; omega
    · intro h
      rcases lt_trichotomy p q with hpq | rfl | hpq
      · exact Or.inl hpq
      · exact Or.inr ⟨rfl, ih.2 (by omega)⟩
      · exfalso
        have : (q + 1) * (ls.map List.length).prod ≤ p * (ls.map List.length).prod := Nat.mul_le_mul_right _ hpq
        linarith [Nat.add_mul q 1 (ls.map List.length).prod]
  | [], _ :: _, _, h, _ => h.elim
  | _ :: _, [], _, h, _ => h.elim
  | [], [], _ :: _, _, h => h.elim
  | _ :: _, _ :: _, [], _, h => h.elim

/-- C32: every position in the enumeration belongs to a position tuple (exactly one, by `C32_lexicographic`). -/
theorem C32_surjective : ∀ (ls : List (List α)) (n : ℕ), n < (product ls).length → ∃ p, ValidPos ls p ∧ rank ls p = n
  | [], n, h => by
    simp only [product, List.length_cons, List.length_nil] at h
    exact ⟨[], trivial, by simp [rank]; omega⟩
  | l :: ls, n, h => by
    rw [product_length] at h
    simp only [List.map_cons, List.prod_cons] at h
    have hpos : 0 < (ls.map List.length).prod := by
      rcases Nat.eq_zero_or_pos (ls.map List.length).prod with h0 | h0
      · rw [h0] at h; omega
      · exact h0
    obtain ⟨ps, hv, hr⟩ := C32_surjective ls (n % (ls.map List.length).prod) (by rw [product_length]; exact Nat.mod_lt _ hpos)
    refine ⟨n / (ls.map List.length).prod :: ps, ⟨?_, hv⟩, ?_⟩
    · exact Nat.div_lt_of_lt_mul (by rwa [Nat.mul_comm])
    · simp only [rank, hr]
      exact Nat.div_add_mod' n _

/-- C32: without repeated values, the combinations are pairwise different, and are exactly the tuples of values of the ranges. -/
theorem C32_exactly_once : ∀ (ls : List (List α)), (∀ l ∈ ls, l.Nodup) → (product ls).Nodup ∧ ∀ t, t ∈ product ls ↔ List.Forall₂ (· ∈ ·) t ls
  | [], _ => by
    refine ⟨by simp [product], ?_⟩
    intro t
    simp [product]
  | l :: ls, h => by
    obtain ⟨h1, h2⟩ := C32_exactly_once ls (fun x hx => h x (by simp [hx]))
    constructor
    · simp only [product]
      rw [List.nodup_flatMap]
      refine ⟨fun x _ => h1.map (fun a b hab => by simpa using hab), ?_⟩
      refine (h l (by simp)).imp ?_
      intro a b hab
      simp only [Function.onFun]
      rw [List.disjoint_left]
      intro t ht ht'
      simp only [List.mem_map] at ht ht'
      obtain ⟨u, _, rfl⟩ := ht
      obtain ⟨v, _, hv⟩ := ht'
      simp only [List.cons.injEq] at hv
      exact hab hv.1.symm
    · intro t
      simp only [product, List.mem_flatMap, List.mem_map]
      constructor
      · rintro ⟨x, hx, u, hu, rfl⟩
        exact .cons hx ((h2 u).1 hu)
      · intro ht
        cases ht with
        | cons hx hu => exact ⟨_, hx, _, (h2 _).2 hu, rfl⟩

/-- C32: no ranges: exactly one combination; an empty range: none. -/
theorem C32_empty : product ([] : List (List α)) = [[]] ∧ ∀ ls : List (List α), [] ∈ ls → product ls = [] := by
  refine ⟨rfl, ?_⟩
  intro ls h
  rw [← List.length_eq_zero_iff, product_length]
  exact List.prod_eq_zero (List.mem_map.2 ⟨[], h, rfl⟩)

/-! ### infinitely many values, and consumers that stop early -/

theorem takeLoop_fin (ls : List (List α)) (tk : ℕ → Option (List (List α))) (htk : ∀ k, tk k = some ((product ls).take k)) :
    ∀ (k : ℕ) (l : List α), takeLoop tk k l = some ((product (l :: ls)).take k)
  | 0, l => by simp [takeLoop]
  | k + 1, [] => by simp [takeLoop, product]
  | k + 1, x :: l => by
    have ih := takeLoop_fin ls tk htk (k + 1 - ((product ls).take (k + 1)).length) l
    simp only [takeLoop, htk, bind, Option.bind]
    rw [ih]
    simp only [product, List.flatMap_cons, List.take_append, List.length_map, List.map_take, Option.some.injEq]
    congr 2
    simp only [List.length_take]
    omega
  termination_by k l => l.length

/-- C32: a consumer that stops after `k` items gets the first `k` combinations. -/
theorem C32_first_items : ∀ (ls : List (List α)) (k : ℕ), takeProduct (ls.map .fin) k = some ((product ls).take k)
  | [], k => rfl
  | l :: ls, k => by
    simp only [List.map_cons, takeProduct]
    exact takeLoop_fin ls _ (fun k => C32_first_items ls k) k l

theorem take_flatMap_const (f : ℕ → α) (m : List (List α)) (hm : m ≠ []) (n k : ℕ) (hn : k ≤ n) :
    (((List.range n).map f).flatMap (fun x => m.map (x :: ·))).take k = (List.range k).map (fun i => f (i / m.length) :: (m[i % m.length]?).getD []) := by
  have hlen : 0 < m.length := List.length_pos_iff.2 hm
  apply List.ext_getElem?
  intro i
  by_cases hi : i < k
  · rw [List.getElem?_take_of_lt hi, List.getElem?_map, List.getElem?_range hi]
    have h1 : ((List.range n).map f)[i / m.length]? = some (f (i / m.length)) := by
      rw [List.getElem?_map, List.getElem?_range]
      · rfl
      · exact lt_of_le_of_lt (Nat.div_le_self _ _) (by omega)
    have h2 := flatMap_getElem m (fun x y => x :: y) m.length rfl ((List.range n).map f) (i / m.length) (i % m.length) _ h1 (Nat.mod_lt _ hlen)
    rw [Nat.div_add_mod'] at h2
    rw [h2]
    have h3 : m[i % m.length]? = some (m[i % m.length]'(Nat.mod_lt _ hlen)) := List.getElem?_eq_getElem (Nat.mod_lt _ hlen)
    simp only [h3, Option.map_some, Option.getD_some]
  · rw [List.getElem?_eq_none (by simp; omega), List.getElem?_eq_none (by simpa using hi)]

/-- C32: the outermost range may be infinite: item `n` then has the outermost value number `n / m` and the combination number `n % m` of
the others, `m` being the number of these. -/
theorem C32_infinite_outer (f : ℕ → α) (ls : List (List α)) (h : product ls ≠ []) (k : ℕ) :
    takeProduct (.inf f :: ls.map .fin) k = some ((List.range k).map (fun n => f (n / (product ls).length) :: ((product ls)[n % (product ls).length]?).getD [])) := by
  simp only [takeProduct]
  split
  · rename_i h0; subst h0; rfl
  · rename_i h0
    rw [C32_first_items]
    simp only [bind, Option.bind]
    rw [if_neg (by simp [List.take_eq_nil_iff, h, h0])]
    rw [takeLoop_fin ls _ (fun k => C32_first_items ls k)]
    simp only [product]
    rw [take_flatMap_const f (product ls) h k k (le_refl k)]

/-! ### ranges -/

theorem pyRangeLen_iff (a b s : ℤ) (hs : s ≠ 0) (k : ℕ) : k < pyRangeLen a b s ↔ (0 < s ∧ a + s * k < b) ∨ (s < 0 ∧ b < a + s * k) := by
  unfold pyRangeLen
  by_cases h : s > 0
  · rw [if_pos h]
    have h' : ¬ s < 0 := by omega
    simp only [h, true_and, h', false_and, or_false]
    split
    · rename_i hab
      rw [Int.lt_toNat, Int.lt_add_one_iff, Int.le_ediv_iff_mul_le h]
      constructor <;> intro hh <;> linarith [mul_comm (k : ℤ) s]
    · rename_i hab
      have : 0 ≤ s * (k : ℤ) := mul_nonneg (by omega) (by omega)
      constructor
      · intro hh; omega
      · intro hh; linarith
  · rw [if_neg h]
    have h1 : s < 0 := by omega
    have h2 : ¬ 0 < s := by omega
    simp only [h1, true_and, h2, false_and, false_or]
    split
    · rename_i hab
      rw [Int.lt_toNat, Int.lt_add_one_iff, Int.le_ediv_iff_mul_le (by omega)]
      constructor <;> intro hh <;> linarith [mul_comm (k : ℤ) s, mul_neg (k : ℤ) s]
    · rename_i hab
      have : s * (k : ℤ) ≤ 0 := mul_nonpos_of_nonpos_of_nonneg (by omega) (by omega)
      constructor
      · intro hh; omega
      · intro hh; linarith

/-- C32: `IndexOverRange(start, to, step)` runs over the numbers `start + k * step` up to and including `to` (down to `to`, for a negative
step), in this order. -/
theorem C32_range_values (a b s : ℤ) (hs : s ≠ 0) (v : ℤ) :
    v ∈ pyRangeItems a (stopOf b s) s ↔ ∃ k : ℕ, v = a + s * k ∧ ((0 < s ∧ v ≤ b) ∨ (s < 0 ∧ b ≤ v)) := by
  simp only [pyRangeItems, List.mem_map, List.mem_range, pyRangeLen_iff _ _ _ hs, stopOf]
  constructor
  · rintro ⟨k, hk, rfl⟩
    refine ⟨k, rfl, ?_⟩
    split at hk <;> omega
  · rintro ⟨k, rfl, hk⟩
    refine ⟨k, ?_, rfl⟩
    split <;> omega

theorem pyRangeItems_nodup (a b s : ℤ) (hs : s ≠ 0) : (pyRangeItems a b s).Nodup := by
  unfold pyRangeItems
  refine List.Nodup.map ?_ List.nodup_range
  intro x y h
  simp only at h
  have : s * ((x : ℤ) - y) = 0 := by linarith [mul_sub s (x : ℤ) y]
  rcases mul_eq_zero.1 this with h | h
  · exact absurd h hs
  · omega

theorem pyRangeContains_iff (a b s v : ℤ) (hs : s ≠ 0) : pyRangeContains a b s v = true ↔ v ∈ pyRangeItems a b s := by
  simp only [pyRangeItems, List.mem_map, List.mem_range, pyRangeLen_iff _ _ _ hs, pyRangeContains]
  split
  · rename_i h
    have h' : ¬ s < 0 := by omega
    simp only [h', false_and, or_false, Bool.and_eq_true, decide_eq_true_eq]
    constructor
    · rintro ⟨⟨h1, h2⟩, h3⟩
      obtain ⟨q, hq⟩ := Int.dvd_of_emod_eq_zero h3
      have hq0 : 0 ≤ q := by
        by_contra hneg
        have : s * q < 0 := mul_neg_of_pos_of_neg h (by omega)
        omega
      refine ⟨q.toNat, ⟨h, ?_⟩, ?_⟩ <;> rw [Int.toNat_of_nonneg hq0] <;> omega
    · rintro ⟨k, ⟨_, hk⟩, rfl⟩
      have : 0 ≤ s * (k : ℤ) := mul_nonneg (by omega) (by omega)
      refine ⟨⟨by omega, hk⟩, ?_⟩
      have : a + s * (k : ℤ) - a = s * k := by ring
      rw [this, Int.mul_emod_right]
  · rename_i h
    have h1 : s < 0 := by omega
    have h2 : ¬ 0 < s := by omega
    simp only [h1, true_and, h2, false_and, false_or, Bool.and_eq_true, decide_eq_true_eq]
    constructor
    · rintro ⟨⟨h3, h4⟩, h5⟩
      obtain ⟨q, hq⟩ := Int.dvd_of_emod_eq_zero h5
      have hq0 : 0 ≤ q := by
        by_contra hneg
        have : 0 < s * q := mul_pos_of_neg_of_neg h1 (by omega)
        omega
      refine ⟨q.toNat, ?_, ?_⟩ <;> rw [Int.toNat_of_nonneg hq0] <;> omega
    · rintro ⟨k, hk, rfl⟩
      have : s * (k : ℤ) ≤ 0 := mul_nonpos_of_nonpos_of_nonneg (by omega) (by omega)
      refine ⟨⟨hk, by omega⟩, ?_⟩
      have : a + s * (k : ℤ) - a = s * k := by ring
      rw [this, Int.mul_emod_right]

/-- a value is enumerated by a generator -/
def Gen.Mem {α : Type} (v : α) : Gen α → Prop
  | .fin l => v ∈ l
  | .inf f => ∃ n, f n = v

/-- C32: `v in r` is true exactly for the values the range runs over, whenever it is not an error (the only errors: step 0, and a
string for a Fock space). -/
theorem C32_membership (r : Range) (v : Val) (g : Gen Val) (hg : r.gen = .ok g) (b : Bool) (hb : r.contains v = .ok b) : b = true ↔ g.Mem v := by
  cases r with
  | list s vs =>
    simp only [Range.gen, Except.ok.injEq] at hg
    subst hg
    simp only [Range.contains, Except.ok.injEq] at hb
    subst hb
    simp [Gen.Mem]
  | range s a t st =>
    simp only [Range.gen] at hg
    split at hg
    · cases hg
    · rename_i hs
      cases hg
      cases v with
      | int z =>
        simp only [Range.contains, hs, if_false, Except.ok.injEq] at hb
        subst hb
        rw [pyRangeContains_iff _ _ _ _ hs]
        simp [Gen.Mem]
      | str n =>
        simp only [Range.contains, hs, if_false, Except.ok.injEq] at hb
        subst hb
        simp [Gen.Mem]
  | fock s d =>
    cases v with
    | str n => cases d <;> cases hb
    | int z =>
      cases d with
      | none =>
        cases hg
        cases hb
        simp only [Gen.Mem, decide_eq_true_eq, Val.int.injEq]
        exact ⟨fun h => ⟨z.toNat, Int.toNat_of_nonneg h⟩, by rintro ⟨n, rfl⟩; omega⟩
      | some d =>
        cases hg
        cases hb
        simp only [Gen.Mem, decide_eq_true_eq, List.mem_map, List.mem_range, Val.int.injEq]
        exact ⟨fun h => ⟨z.toNat, by omega, by omega⟩, by rintro ⟨n, hn, rfl⟩; omega⟩

/-- C32: `len(r)` is the number of values; it fails for an infinite range. -/
theorem C32_range_length (r : Range) : (∀ l, r.gen = .ok (.fin l) → r.len = .ok l.length) ∧ (∀ f, r.gen = .ok (.inf f) → r.len = .error .typeError) := by
  cases r with
  | list s vs => simp [Range.gen, Range.len]
  | range s a t st =>
    simp only [Range.gen, Range.len]
    split
    · simp
    · simp only [Except.ok.injEq, Gen.fin.injEq, reduceCtorEq, false_imp_iff, implies_true, and_true]
      rintro l rfl
      simp [pyRangeItems]
  | fock s d => cases d <;> simp [Range.gen, Range.len]

/-- C32: `IndexOverRange` and `IndexOverFockSpace` have no repeated values. -/
theorem C32_no_repetition (r : Range) (l : List Val) (h : r.gen = .ok (.fin l)) (hl : ∀ s vs, r ≠ .list s vs) : l.Nodup := by
  cases r with
  | list s vs => exact absurd rfl (hl s vs)
  | range s a t st =>
    simp only [Range.gen] at h
    split at h
    · cases h
    · rename_i hs
      cases h
      exact (pyRangeItems_nodup _ _ _ hs).map (fun x y hxy => by simpa using hxy)
  | fock s d =>
    cases d with
    | none => cases h
    | some d =>
      cases h
      exact List.nodup_range.map (fun x y hxy => by simpa using hxy)

/-! ### `yield_from_ranges` -/

/-- the values of a list of finite ranges -/
def valuesOf : List Range → List (List Val) → Prop
  | [], [] => True
  | r :: rs, l :: ls => r.gen = .ok (.fin l) ∧ valuesOf rs ls
  | _, _ => False

theorem setItem_new {d : Dict} {k : Sym} {v : Val} (h : k ∉ d.map Prod.fst) : d.setItem k v = d ++ [(k, v)] := by
  unfold Dict.setItem
  rw [if_neg]
  simp only [List.any_eq_true, decide_eq_true_eq, not_exists, not_and]
  intro x hx hk
  exact h (List.mem_map.2 ⟨x, hx, hk⟩)

theorem get_cons (k k' : Sym) (v : Val) (d : Dict) : Dict.get ((k, v) :: d) k' = if k = k' then some v else Dict.get d k' := by
  unfold Dict.get
  rw [List.find?_cons]
  by_cases h : k = k' <;> simp [h]

theorem get_setItem (d : Dict) (k k' : Sym) (v : Val) : (d.setItem k v).get k' = if k = k' then some v else d.get k' := by
  unfold Dict.setItem
  split
  · rename_i h
    induction d with
    | nil => simp at h
    | cons x d ih =>
      obtain ⟨a, b⟩ := x
      rw [List.map_cons]
      by_cases ha : a = k
      · subst ha
        simp only [if_true, get_cons]
        split
        · rfl
        · rename_i hk
          clear ih h
          induction d with
          | nil => rfl
          | cons y d ih =>
            obtain ⟨c, e⟩ := y
            rw [List.map_cons]
            simp only
            split
            · rename_i hc; subst hc; rw [get_cons, get_cons, if_neg hk, if_neg hk, ih]
            · rw [get_cons, get_cons, ih]
      · simp only [ha, if_false, get_cons]
        rw [ih (by simpa [ha] using h)]
        by_cases h1 : a = k' <;> by_cases h2 : k = k' <;> simp [h1, h2]
        exact absurd (h1.trans h2.symm) ha
  · rename_i h
    induction d with
    | nil => simp [get_cons, Dict.get]
    | cons x d ih =>
      obtain ⟨a, b⟩ := x
      simp only [List.any_cons, Bool.or_eq_true, decide_eq_true_eq, not_or] at h
      rw [List.cons_append, get_cons, get_cons, ih (by simpa using h.2)]
      by_cases h1 : a = k' <;> by_cases h2 : k = k' <;> simp [h1, h2]
      exact absurd (h1.trans h2.symm) h.1

theorem get_update (d e : Dict) (he : (e.map Prod.fst).Nodup) (k : Sym) : (Dict.update d e).get k = (e.get k).or (d.get k) := by
  unfold Dict.update
  induction e generalizing d with
  | nil => simp [Dict.get]
  | cons x e ih =>
    obtain ⟨a, v⟩ := x
    rw [List.map_cons, List.nodup_cons] at he
    rw [List.foldl_cons, ih _ he.2, get_setItem, get_cons]
    by_cases h : a = k
    · subst h
      have : Dict.get e a = none := by
        unfold Dict.get
        rw [List.find?_eq_none.mpr]
        · rfl
        · intro x hx; simp only [decide_eq_true_eq]; intro hk; exact he.1 (List.mem_map.mpr ⟨x, hx, hk⟩)
      simp [this]
    · simp [h]

/-- C32: `_merge_dicts(*dicts)` has the keys of all the dictionaries, and for a key that occurs in several of them, the value in the last one. -/
theorem C32_merge_dicts (ds : List Dict) (hd : ∀ d ∈ ds, (d.map Prod.fst).Nodup) (k : Sym) :
    (mergeDicts ds).get k = ds.reverse.findSome? (fun d => d.get k) := by
  have main : ∀ (ds : List Dict) (d0 : Dict), (∀ d ∈ ds, (d.map Prod.fst).Nodup) →
      (ds.foldl Dict.update d0).get k = (ds.reverse.findSome? (fun d => d.get k)).or (d0.get k) := by
    intro ds
    induction ds with
    | nil => intro d0 _; simp
    | cons d ds ih =>
      intro d0 h
      rw [List.foldl_cons, ih _ (fun x hx => h x (by simp [hx])), get_update _ _ (h d (by simp)), List.reverse_cons, List.findSome?_append]
      cases ds.reverse.findSome? (fun d => d.get k) <;> simp
  unfold mergeDicts
  rw [main ds [] hd]
  simp [Dict.get]

example : (mergeDicts [[(⟨0, 0⟩, .int 1), (⟨1, 0⟩, .int 2)], [(⟨0, 0⟩, .int 3)]]).get ⟨0, 0⟩ = some (.int 3) := by rfl

theorem merge_singletons : ∀ (ks : List Sym) (vs : List Val) (d : Dict), ks.length = vs.length → (d.map Prod.fst ++ ks).Nodup →
    ((ks.zip vs).map (fun x => [x])).foldl Dict.update d = d ++ ks.zip vs
  | [], [], d, _, _ => by simp
  | k :: ks, v :: vs, d, h, hn => by
    simp only [List.zip_cons_cons, List.map_cons, List.foldl_cons]
    have hk : k ∉ d.map Prod.fst := by
      rw [List.nodup_append] at hn
      intro hc
      exact hn.2.2 k hc k (by simp) rfl
    have h1 : Dict.update d [(k, v)] = d ++ [(k, v)] := by
      simp only [Dict.update, List.foldl_cons, List.foldl_nil]
      exact setItem_new hk
    rw [h1, merge_singletons ks vs (d ++ [(k, v)]) (by simpa using h) (by simpa using hn)]
    simp
  | [], _ :: _, _, h, _ => by simp at h
  | _ :: _, [], _, h, _ => by simp at h

theorem iter_lists : ∀ (rs : List Range) (ls : List (List Val)), valuesOf rs ls →
    (rs.mapM Range.iter : Res (List (Gen Dict))) = .ok ((rs.zip ls).map (fun x => .fin (x.2.map (fun v => [(x.1.sym, v)])))) 
  | [], [], _ => rfl
  | r :: rs, l :: ls, h => by
    have ih := iter_lists rs ls h.2
    rw [List.mapM_cons, ih]
    simp only [Range.iter, h.1, Except.map, Gen.map, List.zip_cons_cons, List.map_cons]
    rfl
  | [], _ :: _, h => h.elim
  | _ :: _, [], h => h.elim

theorem toLists (rs : List Range) (ls : List (List Val)) :
    (((rs.zip ls).map (fun x => Gen.fin (x.2.map (fun v => ([(x.1.sym, v)] : Dict))))).mapM Gen.toList? : Option _) =
      some ((rs.zip ls).map (fun x => x.2.map (fun v => ([(x.1.sym, v)] : Dict)))) := by
  induction rs.zip ls with
  | nil => rfl
  | cons x l ih => rw [List.map_cons, List.mapM_cons, ih]; rfl

theorem product_dicts : ∀ (rs : List Range) (ls : List (List Val)), rs.length = ls.length →
    product ((rs.zip ls).map (fun x => x.2.map (fun v => ([(x.1.sym, v)] : Dict)))) = (product ls).map (fun t => ((rs.map Range.sym).zip t).map (fun x => [x]))
  | [], [], _ => rfl
  | r :: rs, l :: ls, h => by
    have ih := product_dicts rs ls (by simpa using h)
    simp only [List.zip_cons_cons, List.map_cons, product]
    rw [ih]
    rw [List.flatMap_map, List.map_flatMap]
    congr 1
    funext x
    simp only [List.map_map]
    rfl
  | [], _ :: _, h => by simp at h
  | _ :: _, [], h => by simp at h

theorem valuesOf_length : ∀ {rs : List Range} {ls : List (List Val)}, valuesOf rs ls → rs.length = ls.length
  | [], [], _ => rfl
  | _ :: _, _ :: _, h => by simp [valuesOf_length h.2]
  | [], _ :: _, h => h.elim
  | _ :: _, [], h => h.elim

theorem product_item_length {ls : List (List α)} : ∀ {t : List α}, t ∈ product ls → t.length = ls.length := by
  induction ls with
  | nil => intro t h; simp only [product, List.mem_singleton] at h; simp [h]
  | cons l ls ih =>
    intro t h
    simp only [product, List.mem_flatMap, List.mem_map] at h
    obtain ⟨x, _, u, hu, rfl⟩ := h
    simp [ih hu]

/-- C32: for ranges with distinct index symbols, `yield_from_ranges` yields, for every combination of the Cartesian product of the values, in
its order, the dictionary that maps every index symbol to its value. -/
theorem C32_yield_from_ranges (rs : List Range) (ls : List (List Val)) (h : valuesOf rs ls) (hn : (rs.map Range.sym).Nodup) :
    yieldFromRanges rs = .ok ((product ls).map (fun t => (rs.map Range.sym).zip t)) := by
  unfold yieldFromRanges
  rw [iter_lists rs ls h]
  simp only [bind, Except.bind]
  rw [toLists]
  simp only [product_dicts rs ls (valuesOf_length h), List.map_map, Except.ok.injEq]
  apply List.map_congr_left
  intro t ht
  simp only [Function.comp, mergeDicts]
  rw [merge_singletons _ _ [] (by rw [product_item_length ht]; simp [valuesOf_length h]) (by simpa using hn)]
  rfl

/-- C32: `len(sum)` is the number of yielded dictionaries. -/
theorem C32_sum_length : ∀ (rs : List Range) (ls : List (List Val)), valuesOf rs ls → sumLen rs = .ok (product ls).length
  | [], [], _ => rfl
  | r :: rs, l :: ls, h => by
    have ih := C32_sum_length rs ls h.2
    rw [product_length] at *
    simp only [sumLen, (C32_range_length r).1 l h.1, ih, Except.map, List.map_cons, List.prod_cons]
  | [], _ :: _, h => h.elim
  | _ :: _, [], h => h.elim

/-- a concrete case: `for i in (3, 1)`, `for j in range(5, 0, -2)` -/
example : yieldFromRanges [.list ⟨0, 0⟩ [.int 3, .str 1], .range ⟨1, 0⟩ 5 1 (-2)] =
    .ok [[(⟨0, 0⟩, .int 3), (⟨1, 0⟩, .int 5)], [(⟨0, 0⟩, .int 3), (⟨1, 0⟩, .int 3)], [(⟨0, 0⟩, .int 3), (⟨1, 0⟩, .int 1)],
      [(⟨0, 0⟩, .str 1), (⟨1, 0⟩, .int 5)], [(⟨0, 0⟩, .str 1), (⟨1, 0⟩, .int 3)], [(⟨0, 0⟩, .str 1), (⟨1, 0⟩, .int 1)]] := by rfl

example : valuesOf [.list ⟨0, 0⟩ [.int 3, .str 1], .range ⟨1, 0⟩ 5 1 (-2)] [[.int 3, .str 1], [.int 5, .int 3, .int 1]] := ⟨rfl, rfl, trivial⟩

/-- an infinite range outside of a finite one -/
example : takeFromRanges [.fock ⟨0, 0⟩ none, .list ⟨1, 0⟩ [.int 7, .int 8]] 3 =
    .ok [[(⟨0, 0⟩, .int 0), (⟨1, 0⟩, .int 7)], [(⟨0, 0⟩, .int 0), (⟨1, 0⟩, .int 8)], [(⟨0, 0⟩, .int 1), (⟨1, 0⟩, .int 7)]] := by rfl

end QNET.Indexed
