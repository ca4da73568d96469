import Mathlib.Data.List.Basic
import Mathlib.Data.List.Nodup
import Mathlib.Data.List.Range
import Mathlib.Data.List.Enum
import Mathlib.Tactic.Common
import Mathlib.Tactic.Ring

/-!
# `dotprint` (C75)

Model of `/repo/src/qnet/printing/dot.py` lines 163-244 with `repeat=True`: the loop that collects nodes and edges. A node is represented by its location, its expression and whether it is drawn as
a leaf (these determine the line of text: `_node_id`, `_styleof`, `labelfunc`); an edge by the two locations. The text around them is not modelled.
-/

namespace QNET.Dot

/-- expressions with the children `get_children` returns -/
inductive Tree (α : Type*) where
  | node (a : α) (cs : List (Tree α))

variable {α : Type*}

def Tree.label : Tree α → α
  | .node a _ => a
def Tree.kids : Tree α → List (Tree α)
  | .node _ cs => cs

/-- a location: level and position in the level -/
abbrev Loc := ℕ × ℕ

structure Graph (α : Type*) where
  nodes : List (Loc × α × Bool)
  edges : List (Loc × Loc)

/-- `len(children) == 0`, or the level is at least `maxdepth` (lines 225-228) -/
def isLeaf (md : Option ℕ) (l : ℕ) (t : Tree α) : Bool :=
  t.kids.isEmpty || (match md with
    | none => false
    | some m => decide (m ≤ l))

/-- lines 232-240: the loop over the children: edges, new entries of the stack, the position counters -/
def pushKids (l i : ℕ) : List (Tree α) → (ℕ → ℕ) → List (Loc × Loc) × List (ℕ × ℕ × Tree α) × (ℕ → ℕ)
  | [], cnt => ([], [], cnt)
  | c :: cs, cnt =>
    let j := cnt (l + 1)
    let r := pushKids l i cs (Function.update cnt (l + 1) (j + 1))
    (((l, i), (l + 1, j)) :: r.1, (l + 1, j, c) :: r.2.1, r.2.2)

/-- the loop over the stack (lines 222-240); the first argument bounds the number of steps -/
def loop (md : Option ℕ) : ℕ → List (ℕ × ℕ × Tree α) → (ℕ → ℕ) → Option (Graph α)
  | _, [], _ => some ⟨[], []⟩
  | 0, _ :: _, _ => none
  | n + 1, (l, i, t) :: q, cnt =>
    let lf := isLeaf md l t
    let r := pushKids l i (if lf then [] else t.kids) cnt
    (loop md n (q ++ r.2.1) r.2.2).map fun g => ⟨((l, i), t.label, lf) :: g.nodes, r.1 ++ g.edges⟩

/-- `dotprint` returns the graph `g` -/
def Returns (md : Option ℕ) (t : Tree α) (g : Graph α) : Prop := ∃ N, ∀ n ≥ N, loop md n [(0, 0, t)] (fun _ => 0) = some g

/-! ### Specification -/

/-- the part of the tree that is drawn: `At md t p u` says that the list of child numbers `p` leads from `t` to `u`, without going below `maxdepth` -/
inductive At (md : Option ℕ) (t : Tree α) : List ℕ → Tree α → Prop
  | root : At md t [] t
  | child {p : List ℕ} {u c : Tree α} {i : ℕ} : At md t p u → (∀ m, md = some m → p.length < m) → u.kids[i]? = some c → At md t (p ++ [i]) c

/-- `g` is a drawing of the tree: there is a numbering of the positions of the tree, different for different positions, such that the nodes are the positions with their expressions and
the edges go from each position to its children, each exactly once, children in their order -/
structure Draws (md : Option ℕ) (t : Tree α) (g : Graph α) (loc : List ℕ → Loc) : Prop where
  inj : ∀ p q u v, At md t p u → At md t q v → loc p = loc q → p = q
  nodes : ∀ x, x ∈ g.nodes ↔ ∃ p u, At md t p u ∧ x = (loc p, u.label, isLeaf md p.length u)
  nodup : (g.nodes.map Prod.fst).Nodup
  edges : ∀ e, e ∈ g.edges ↔ ∃ p i c, At md t (p ++ [i]) c ∧ e = (loc p, loc (p ++ [i]))
  edges_nodup : g.edges.Nodup
  level : ∀ p u, At md t p u → (loc p).1 = p.length
  order : ∀ p i j c d, At md t (p ++ [i]) c → At md t (p ++ [j]) d → i < j → (loc (p ++ [i])).2 < (loc (p ++ [j])).2

/-! ### The levels of the tree -/

/-- the children that are drawn -/
def drawn (md : Option ℕ) (l : ℕ) (t : Tree α) : List (Tree α) := if isLeaf md l t then [] else t.kids

/-- the positions of one level with their subtrees, from those of the level above -/
def next (md : Option ℕ) (l : ℕ) (xs : List (List ℕ × Tree α)) : List (List ℕ × Tree α) :=
  xs.flatMap fun x => (drawn md l x.2).mapIdx fun i c => (x.1 ++ [i], c)

def levels (md : Option ℕ) (t : Tree α) : ℕ → List (List ℕ × Tree α)
  | 0 => [([], t)]
  | l + 1 => next md l (levels md t l)

theorem drawn_get {md : Option ℕ} {l : ℕ} {t c : Tree α} {i : ℕ} : (drawn md l t)[i]? = some c ↔ (∀ m, md = some m → l < m) ∧ t.kids[i]? = some c := by
  rw [drawn]
  split_ifs with h
  · constructor
    · intro h
      simp at h
    · rintro ⟨h1, h2⟩
      simp only [isLeaf, Bool.or_eq_true] at h
      rcases h with h | h
      · rw [List.isEmpty_iff.mp h] at h2
        simp at h2
      · obtain - | m := md
        · cases h
        · have := h1 m rfl
          simp at h
          omega
  · refine ⟨fun h' => ⟨fun m hm => ?_, h'⟩, fun h => h.2⟩
    subst hm
    simp [isLeaf] at h
    omega

theorem mem_levels {md : Option ℕ} {t : Tree α} : ∀ {l : ℕ} {p : List ℕ} {u : Tree α}, (p, u) ∈ levels md t l ↔ At md t p u ∧ p.length = l
  | 0, p, u => by
    rw [levels, List.mem_singleton]
    constructor
    · rintro h
      injection h with h h'
      subst h h'
      exact ⟨.root, rfl⟩
    · rintro ⟨h, h'⟩
      cases h
      · rfl
      · simp at h'
  | l + 1, p, u => by
    rw [levels, next, List.mem_flatMap]
    constructor
    · rintro ⟨⟨q, w⟩, h1, h2⟩
      rw [List.mem_iff_getElem?] at h2
      obtain ⟨i, h2⟩ := h2
      rw [List.getElem?_mapIdx] at h2
      obtain ⟨c, h3, h4⟩ := Option.map_eq_some_iff.mp h2
      injection h4 with h4 h5
      subst h4 h5
      obtain ⟨h6, h7⟩ := mem_levels.mp h1
      rw [drawn_get] at h3
      exact ⟨.child h6 (by rw [h7]; exact h3.1) h3.2, by simp [h7]⟩
    · rintro ⟨h, h'⟩
      cases h with
      | root => cases h'
      | child h1 h2 h3 =>
        rename_i q w i
        have h' : q.length = l := by simpa using h'
        refine ⟨(q, w), mem_levels.mpr ⟨h1, h'⟩, ?_⟩
        rw [List.mem_iff_getElem?]
        refine ⟨i, ?_⟩
        rw [List.getElem?_mapIdx, drawn_get.mpr ⟨by rw [← h']; exact h2, h3⟩]
        rfl

theorem At.unique {md : Option ℕ} {t : Tree α} {p : List ℕ} {u v : Tree α} (h : At md t p u) : At md t p v → u = v := by
  induction h generalizing v with
  | root =>
    intro h
    generalize hp : ([] : List ℕ) = p at h
    cases h
    · rfl
    · simp at hp
  | @child p u c i h1 h2 h3 ih =>
    intro h
    generalize hp : p ++ [i] = q at h
    cases h with
    | root => simp at hp
    | @child p' u' c' i' h4 h5 h6 =>
      obtain ⟨rfl, hi⟩ := List.append_inj' hp rfl
      obtain rfl : i = i' := by simpa using hi
      obtain rfl := ih h4
      rw [h3] at h6
      simpa using h6

theorem mapIdx_fst (p : List ℕ) (cs : List (Tree α)) : (cs.mapIdx fun i c => (p ++ [i], c)).map Prod.fst = (List.range cs.length).map fun i : ℕ => p ++ [i] := by
  refine List.ext_getElem? fun i => ?_
  rw [List.getElem?_map, List.getElem?_mapIdx, List.getElem?_map]
  by_cases h : i < cs.length
  · rw [List.getElem?_eq_getElem h, List.getElem?_eq_getElem (by simpa using h)]
    simp
  · rw [List.getElem?_eq_none (by omega), List.getElem?_eq_none (by simpa using h)]
    rfl

theorem levels_nodup {md : Option ℕ} {t : Tree α} : ∀ l : ℕ, ((levels md t l).map Prod.fst).Nodup
  | 0 => by simp [levels]
  | l + 1 => by
    have ih := levels_nodup (md := md) (t := t) l
    rw [levels, next, List.map_flatMap, List.nodup_flatMap]
    simp only [mapIdx_fst]
    constructor
    · intro x _
      exact (List.nodup_range).map fun a b h => by simpa using h
    · rw [List.Nodup, List.pairwise_map] at ih
      refine ih.imp fun {x y} hxy => ?_
      rw [Function.onFun, List.disjoint_left]
      intro a ha hb
      rw [List.mem_map] at ha hb
      obtain ⟨i, -, rfl⟩ := ha
      obtain ⟨j, -, hj⟩ := hb
      exact hxy (List.append_inj' hj rfl).1.symm

/-- the location of a position -/
def locOf (md : Option ℕ) (t : Tree α) (p : List ℕ) : Loc := (p.length, ((levels md t p.length).map Prod.fst).idxOf p)

/-! ### The loop goes through the levels -/

/-- entries of the stack for a list of subtrees of one level, with positions from `k` on -/
def entries (l k : ℕ) : List (List ℕ × Tree α) → List (ℕ × ℕ × Tree α)
  | [] => []
  | x :: xs => (l, k, x.2) :: entries l (k + 1) xs

/-- nodes for a list of subtrees of one level, with positions from `k` on -/
def nodesOf (md : Option ℕ) (l k : ℕ) : List (List ℕ × Tree α) → List (Loc × α × Bool)
  | [] => []
  | x :: xs => ((l, k), x.2.label, isLeaf md l x.2) :: nodesOf md l (k + 1) xs

/-- edges to `n` children with positions from `m` on -/
def edgesTo (l k m : ℕ) (n : ℕ) : List (Loc × Loc) := (List.range n).map fun i => ((l, k), (l + 1, m + i))

/-- edges from a list of subtrees of one level, with positions from `k` on, to their children, with positions from `m` on -/
def edgesOf (md : Option ℕ) (l k m : ℕ) : List (List ℕ × Tree α) → List (Loc × Loc)
  | [] => []
  | x :: xs => edgesTo l k m (drawn md l x.2).length ++ edgesOf md l (k + 1) (m + (drawn md l x.2).length) xs

theorem entries_append (l : ℕ) : ∀ (xs ys : List (List ℕ × Tree α)) (k : ℕ), entries l k (xs ++ ys) = entries l k xs ++ entries l (k + xs.length) ys
  | [], ys, k => rfl
  | x :: xs, ys, k => by
    rw [List.cons_append, entries, entries, entries_append l xs ys, List.length_cons, List.cons_append, Nat.add_right_comm, Nat.add_assoc]

theorem pushKids_eq (p : List ℕ) (l i : ℕ) : ∀ (cs : List (Tree α)) (cnt : ℕ → ℕ) (z : ℕ),
    pushKids l i cs cnt = (edgesTo l i (cnt (l + 1)) cs.length, entries (l + 1) (cnt (l + 1)) (cs.mapIdx fun i c => (p ++ [i + z], c)), Function.update cnt (l + 1) (cnt (l + 1) + cs.length))
  | [], cnt, z => by simp [pushKids, edgesTo, entries]
  | c :: cs, cnt, z => by
    rw [pushKids, pushKids_eq p l i cs _ (z + 1)]
    simp only [Function.update_self, Function.update_idem, List.mapIdx_cons, entries, List.length_cons, edgesTo, List.range_succ_eq_map, List.map_cons, List.map_map, Nat.add_zero]
    refine Prod.ext ?_ (Prod.ext ?_ ?_)
    · simp only [List.cons.injEq, true_and]
      refine List.map_congr_left fun a _ => ?_
      simp only [Function.comp_apply, Prod.mk.injEq, true_and]
      omega
    · simp only [List.cons.injEq, true_and]
      congr 2
      funext i c
      congr 3
      omega
    · simp only
      congr 1
      omega

theorem drawn_def (md : Option ℕ) (l : ℕ) (t : Tree α) : (if isLeaf md l t then [] else t.kids) = drawn md l t := rfl

/-- working off the rest `xs` of a level while the next level `ys` is being collected -/
theorem loop_level (md : Option ℕ) (l : ℕ) : ∀ (xs ys : List (List ℕ × Tree α)) (k n : ℕ) (cnt : ℕ → ℕ), cnt (l + 1) = ys.length →
    loop md (n + xs.length) (entries l k xs ++ entries (l + 1) 0 ys) cnt =
      (loop md n (entries (l + 1) 0 (ys ++ next md l xs)) (Function.update cnt (l + 1) (ys ++ next md l xs).length)).map
        fun g => ⟨nodesOf md l k xs ++ g.nodes, edgesOf md l k ys.length xs ++ g.edges⟩
  | [], ys, k, n, cnt, h => by
    simp only [entries, next, List.flatMap_nil, List.append_nil, List.nil_append, List.length_nil, Nat.add_zero, nodesOf, edgesOf]
    rw [← h, Function.update_eq_self]
    cases loop md n (entries (l + 1) 0 ys) cnt <;> rfl
  | x :: xs, ys, k, n, cnt, h => by
    have hp := pushKids_eq x.1 l k (drawn md l x.2) cnt 0
    rw [List.length_cons, ← Nat.add_assoc, entries, List.cons_append, loop, drawn_def, hp]
    simp only [Nat.add_zero]
    have he : entries l (k + 1) xs ++ entries (l + 1) 0 ys ++ entries (l + 1) (cnt (l + 1)) ((drawn md l x.2).mapIdx fun i c => (x.1 ++ [i], c))
        = entries l (k + 1) xs ++ entries (l + 1) 0 (ys ++ (drawn md l x.2).mapIdx fun i c => (x.1 ++ [i], c)) := by
      rw [List.append_assoc, entries_append, h, Nat.zero_add]
    rw [he, loop_level md l xs (ys ++ (drawn md l x.2).mapIdx fun i c => (x.1 ++ [i], c)) (k + 1) n _ (by simp [h])]
    have hn : ys ++ next md l (x :: xs) = (ys ++ (drawn md l x.2).mapIdx fun i c => (x.1 ++ [i], c)) ++ next md l xs := by
      rw [next, List.flatMap_cons, List.append_assoc]
      rfl
    rw [hn, Function.update_idem, Option.map_map]
    congr 1
    funext g
    simp [nodesOf, edgesOf, h]

/-! ### All levels -/

theorem At.size {md : Option ℕ} {t : Tree α} {p : List ℕ} {u : Tree α} (h : At md t p u) : sizeOf u + p.length ≤ sizeOf t := by
  induction h with
  | root => simp
  | @child p u c i h1 h2 h3 ih =>
    have hm : c ∈ u.kids := List.mem_of_getElem? h3
    have hc : sizeOf c < sizeOf u := by
      obtain ⟨a, cs⟩ := u
      have := List.sizeOf_lt_of_mem (show c ∈ cs from hm)
      simp only [Tree.node.sizeOf_spec]
      omega
    simp only [List.length_append, List.length_singleton]
    omega

theorem levels_empty (md : Option ℕ) (t : Tree α) : levels md t (sizeOf t + 1) = [] := by
  rw [List.eq_nil_iff_forall_not_mem]
  rintro ⟨p, u⟩ h
  obtain ⟨h1, h2⟩ := mem_levels.mp h
  have := h1.size
  omega

def nodesFrom (md : Option ℕ) (t : Tree α) : ℕ → ℕ → List (Loc × α × Bool)
  | _, 0 => []
  | l, d + 1 => nodesOf md l 0 (levels md t l) ++ nodesFrom md t (l + 1) d
def edgesFrom (md : Option ℕ) (t : Tree α) : ℕ → ℕ → List (Loc × Loc)
  | _, 0 => []
  | l, d + 1 => edgesOf md l 0 0 (levels md t l) ++ edgesFrom md t (l + 1) d

theorem loop_all (md : Option ℕ) (t : Tree α) : ∀ (d l : ℕ), levels md t (l + d) = [] →
    ∃ N, ∀ n ≥ N, ∀ cnt : ℕ → ℕ, (∀ k > l, cnt k = 0) → loop md n (entries l 0 (levels md t l)) cnt = some ⟨nodesFrom md t l d, edgesFrom md t l d⟩
  | 0, l, h => ⟨0, fun n _ cnt _ => by
    rw [Nat.add_zero] at h
    rw [h, entries, loop]
    rfl⟩
  | d + 1, l, h => by
    obtain ⟨N, hN⟩ := loop_all md t d (l + 1) (by rw [← h]; congr 1; omega)
    refine ⟨N + (levels md t l).length, fun n hn cnt hc => ?_⟩
    obtain ⟨m, rfl⟩ := Nat.exists_eq_add_of_le' hn
    have h1 := loop_level md l (levels md t l) [] 0 (m + N) cnt (by rw [hc _ (by omega)]; rfl)
    rw [entries, List.append_nil, List.nil_append, Nat.add_assoc] at h1
    rw [h1]
    have h2 := hN (m + N) (by omega) (Function.update cnt (l + 1) (next md l (levels md t l)).length) fun k hk => by
      rw [Function.update_of_ne (by omega), hc k (by omega)]
    rw [show next md l (levels md t l) = levels md t (l + 1) from rfl] at h2 ⊢
    rw [h2]
    rfl

/-! ### The graph of the levels is a drawing -/

theorem mem_nodesOf {md : Option ℕ} {l : ℕ} {x : Loc × α × Bool} : ∀ {xs : List (List ℕ × Tree α)} {k : ℕ},
    x ∈ nodesOf md l k xs ↔ ∃ (j : ℕ) (y : List ℕ × Tree α), xs[j]? = some y ∧ x = ((l, k + j), y.2.label, isLeaf md l y.2)
  | [], k => by simp [nodesOf]
  | y :: xs, k => by
    rw [nodesOf, List.mem_cons, mem_nodesOf]
    constructor
    · rintro (rfl | ⟨j, z, h1, rfl⟩)
      · exact ⟨0, y, rfl, rfl⟩
      · exact ⟨j + 1, z, h1, by rw [Nat.add_assoc, Nat.add_comm 1]⟩
    · rintro ⟨j, z, h1, rfl⟩
      obtain - | j := j
      · left
        simp at h1
        subst h1
        rfl
      · right
        exact ⟨j, z, h1, by rw [Nat.add_assoc, Nat.add_comm 1]⟩

theorem nodesOf_fst (md : Option ℕ) (l : ℕ) : ∀ (xs : List (List ℕ × Tree α)) (k : ℕ), (nodesOf md l k xs).map Prod.fst = (List.range xs.length).map fun j => (l, k + j)
  | [], k => rfl
  | y :: xs, k => by
    rw [nodesOf, List.map_cons, nodesOf_fst md l xs, List.length_cons, List.range_succ_eq_map, List.map_cons, List.map_map]
    congr 1
    refine List.map_congr_left fun a _ => ?_
    simp only [Function.comp_apply, Prod.mk.injEq, true_and]
    omega

theorem range_locs_nodup (l k n : ℕ) : ((List.range n).map fun j => ((l, k + j) : Loc)).Nodup :=
  List.nodup_range.map fun a b h => by simpa using h

theorem mem_nodesFrom {md : Option ℕ} {t : Tree α} {x : Loc × α × Bool} : ∀ {d l : ℕ}, x ∈ nodesFrom md t l d ↔ ∃ k, l ≤ k ∧ k < l + d ∧ x ∈ nodesOf md k 0 (levels md t k)
  | 0, l => by
    simp only [nodesFrom, List.not_mem_nil, false_iff]
    rintro ⟨k, h1, h2, -⟩
    omega
  | d + 1, l => by
    rw [nodesFrom, List.mem_append, mem_nodesFrom]
    constructor
    · rintro (h | ⟨k, h1, h2, h3⟩)
      · exact ⟨l, by omega, by omega, h⟩
      · exact ⟨k, by omega, by omega, h3⟩
    · rintro ⟨k, h1, h2, h3⟩
      by_cases h : k = l
      · subst h
        exact .inl h3
      · exact .inr ⟨k, by omega, by omega, h3⟩

theorem mem_edgesFrom {md : Option ℕ} {t : Tree α} {x : Loc × Loc} : ∀ {d l : ℕ}, x ∈ edgesFrom md t l d ↔ ∃ k, l ≤ k ∧ k < l + d ∧ x ∈ edgesOf md k 0 0 (levels md t k)
  | 0, l => by
    simp only [edgesFrom, List.not_mem_nil, false_iff]
    rintro ⟨k, h1, h2, -⟩
    omega
  | d + 1, l => by
    rw [edgesFrom, List.mem_append, mem_edgesFrom]
    constructor
    · rintro (h | ⟨k, h1, h2, h3⟩)
      · exact ⟨l, by omega, by omega, h⟩
      · exact ⟨k, by omega, by omega, h3⟩
    · rintro ⟨k, h1, h2, h3⟩
      by_cases h : k = l
      · subst h
        exact .inl h3
      · exact .inr ⟨k, by omega, by omega, h3⟩

theorem nodesFrom_nodup (md : Option ℕ) (t : Tree α) : ∀ (d l : ℕ), ((nodesFrom md t l d).map Prod.fst).Nodup
  | 0, l => List.nodup_nil
  | d + 1, l => by
    rw [nodesFrom, List.map_append, List.nodup_append]
    refine ⟨by rw [nodesOf_fst]; exact range_locs_nodup _ _ _, nodesFrom_nodup md t d (l + 1), ?_⟩
    rintro a ha b hb rfl
    rw [nodesOf_fst, List.mem_map] at ha
    obtain ⟨j, -, rfl⟩ := ha
    obtain ⟨x, hx, hx'⟩ := List.mem_map.mp hb
    obtain ⟨k, h1, -, h3⟩ := mem_nodesFrom.mp hx
    obtain ⟨j', y, -, rfl⟩ := mem_nodesOf.mp h3
    injection hx' with h4
    omega

theorem next_length_take (md : Option ℕ) (l : ℕ) (y : List ℕ × Tree α) (xs : List (List ℕ × Tree α)) : (next md l (y :: xs)).length = (drawn md l y.2).length + (next md l xs).length := by
  simp [next]

/-- the children of the `j`-th entry of a level come after those of the entries before it -/
theorem next_get {md : Option ℕ} {l i : ℕ} {c : Tree α} : ∀ {xs : List (List ℕ × Tree α)} {j : ℕ} {y : List ℕ × Tree α}, xs[j]? = some y → (drawn md l y.2)[i]? = some c →
    (next md l xs)[(next md l (xs.take j)).length + i]? = some (y.1 ++ [i], c)
  | [], j, y, h, _ => by simp at h
  | x :: xs, 0, y, h, h' => by
    simp at h
    subst h
    rw [List.take_zero, show next md l ([] : List (List ℕ × Tree α)) = [] from rfl, List.length_nil, Nat.zero_add, next, List.flatMap_cons]
    have hi : i < (drawn md l x.2).length := by
      by_contra hc
      rw [List.getElem?_eq_none (by omega)] at h'
      cases h'
    rw [List.getElem?_append_left (by simpa using hi), List.getElem?_mapIdx, h']
    rfl
  | x :: xs, j + 1, y, h, h' => by
    rw [List.take_succ_cons, next_length_take, next, List.flatMap_cons, Nat.add_assoc]
    rw [List.getElem?_append_right (by simp)]
    have := next_get (xs := xs) (j := j) (y := y) (by simpa using h) h'
    rw [List.length_mapIdx, Nat.add_sub_cancel_left]
    exact this

theorem mem_edgesOf {md : Option ℕ} {l : ℕ} {e : Loc × Loc} : ∀ {xs : List (List ℕ × Tree α)} {k m : ℕ},
    e ∈ edgesOf md l k m xs ↔ ∃ (j : ℕ) (y : List ℕ × Tree α) (i : ℕ), xs[j]? = some y ∧ i < (drawn md l y.2).length ∧ e = ((l, k + j), (l + 1, m + (next md l (xs.take j)).length + i))
  | [], k, m => by simp [edgesOf]
  | x :: xs, k, m => by
    rw [edgesOf, List.mem_append, mem_edgesOf, edgesTo, List.mem_map]
    constructor
    · rintro (⟨i, hi, rfl⟩ | ⟨j, y, i, h1, h2, rfl⟩)
      · refine ⟨0, x, i, rfl, by simpa using hi, ?_⟩
        simp [next]
      · refine ⟨j + 1, y, i, h1, h2, ?_⟩
        rw [List.take_succ_cons, next_length_take]
        simp only [Prod.mk.injEq, true_and]
        omega
    · rintro ⟨j, y, i, h1, h2, rfl⟩
      obtain - | j := j
      · left
        simp at h1
        subst h1
        exact ⟨i, by simpa using h2, by simp [next]⟩
      · right
        refine ⟨j, y, i, h1, h2, ?_⟩
        rw [List.take_succ_cons, next_length_take]
        simp only [Prod.mk.injEq, true_and]
        omega

theorem edgesOf_snd (md : Option ℕ) (l : ℕ) : ∀ (xs : List (List ℕ × Tree α)) (k m : ℕ), (edgesOf md l k m xs).map Prod.snd = (List.range (next md l xs).length).map fun j => (l + 1, m + j)
  | [], k, m => rfl
  | y :: xs, k, m => by
    rw [edgesOf, List.map_append, edgesOf_snd md l xs, next_length_take, List.range_add, List.map_append, edgesTo, List.map_map, List.map_map]
    congr 1
    refine List.map_congr_left fun a _ => ?_
    simp only [Function.comp_apply, Prod.mk.injEq, true_and]
    omega

theorem edgesFrom_nodup (md : Option ℕ) (t : Tree α) : ∀ (d l : ℕ), ((edgesFrom md t l d).map Prod.snd).Nodup
  | 0, l => List.nodup_nil
  | d + 1, l => by
    rw [edgesFrom, List.map_append, List.nodup_append]
    refine ⟨by rw [edgesOf_snd]; exact range_locs_nodup _ _ _, edgesFrom_nodup md t d (l + 1), ?_⟩
    rintro a ha b hb rfl
    rw [edgesOf_snd, List.mem_map] at ha
    obtain ⟨j, -, rfl⟩ := ha
    obtain ⟨x, hx, hx'⟩ := List.mem_map.mp hb
    obtain ⟨k, h1, -, h3⟩ := mem_edgesFrom.mp hx
    obtain ⟨j', y, i, -, -, rfl⟩ := mem_edgesOf.mp h3
    injection hx' with h4
    omega

theorem idxOf_levels {md : Option ℕ} {t : Tree α} {l j : ℕ} {y : List ℕ × Tree α} (h : (levels md t l)[j]? = some y) : locOf md t y.1 = (l, j) := by
  obtain ⟨h1, h2⟩ := mem_levels.mp (List.mem_of_getElem? h)
  rw [locOf, h2]
  obtain ⟨hj, rfl⟩ := List.getElem?_eq_some_iff.mp h
  have := (levels_nodup (md := md) (t := t) l).idxOf_getElem j (by simpa using hj)
  rw [List.getElem_map] at this
  rw [this]

theorem At.get {md : Option ℕ} {t : Tree α} {p : List ℕ} {u : Tree α} (h : At md t p u) : ∃ j : ℕ, (levels md t p.length)[j]? = some (p, u) ∧ locOf md t p = (p.length, j) := by
  obtain ⟨j, hj⟩ := List.mem_iff_getElem?.mp (mem_levels.mpr ⟨h, rfl⟩)
  exact ⟨j, hj, idxOf_levels hj⟩

theorem At.parent {md : Option ℕ} {t : Tree α} {p : List ℕ} {i : ℕ} {c : Tree α} (h : At md t (p ++ [i]) c) : ∃ u, At md t p u ∧ (drawn md p.length u)[i]? = some c := by
  generalize hp : p ++ [i] = q at h
  cases h with
  | root => simp at hp
  | @child p' u' c' i' h4 h5 h6 =>
    obtain ⟨rfl, hi⟩ := List.append_inj' hp rfl
    obtain rfl : i = i' := by simpa using hi
    exact ⟨u', h4, drawn_get.mpr ⟨h5, h6⟩⟩

theorem At.loc_child {md : Option ℕ} {t : Tree α} {p : List ℕ} {u : Tree α} {j : ℕ} (hj : (levels md t p.length)[j]? = some (p, u)) {i : ℕ} (hi : i < (drawn md p.length u).length) :
    locOf md t (p ++ [i]) = (p.length + 1, (next md p.length ((levels md t p.length).take j)).length + i) :=
  idxOf_levels (l := p.length + 1) (y := (p ++ [i], (drawn md p.length u)[i])) (next_get hj (List.getElem?_eq_getElem hi))

theorem draws (md : Option ℕ) (t : Tree α) : Draws md t ⟨nodesFrom md t 0 (sizeOf t + 1), edgesFrom md t 0 (sizeOf t + 1)⟩ (locOf md t) where
  inj p q u v hp hq h := by
    obtain ⟨j, h1, h2⟩ := hp.get
    obtain ⟨k, h3, h4⟩ := hq.get
    rw [h2, h4] at h
    injection h with h h'
    subst h'
    rw [h, h3] at h1
    injection h1 with h1
    injection h1 with h1
    exact h1.symm
  nodes x := by
    rw [mem_nodesFrom]
    constructor
    · rintro ⟨k, -, -, h⟩
      obtain ⟨j, ⟨p, u⟩, h1, rfl⟩ := mem_nodesOf.mp h
      obtain ⟨h2, h3⟩ := mem_levels.mp (List.mem_of_getElem? h1)
      refine ⟨p, u, h2, ?_⟩
      rw [idxOf_levels h1, h3, Nat.zero_add]
    · rintro ⟨p, u, h, rfl⟩
      obtain ⟨j, h1, h2⟩ := h.get
      refine ⟨p.length, by omega, ?_, mem_nodesOf.mpr ⟨j, (p, u), h1, ?_⟩⟩
      · have := h.size
        omega
      · rw [h2, Nat.zero_add]
  nodup := nodesFrom_nodup _ _ _ _
  edges e := by
    rw [mem_edgesFrom]
    constructor
    · rintro ⟨k, -, -, h⟩
      obtain ⟨j, ⟨p, u⟩, i, h1, hi, rfl⟩ := mem_edgesOf.mp h
      obtain ⟨h2, h3⟩ := mem_levels.mp (List.mem_of_getElem? h1)
      subst h3
      have hc := List.getElem?_eq_getElem hi
      refine ⟨p, i, _, .child h2 (drawn_get.mp hc).1 (drawn_get.mp hc).2, ?_⟩
      rw [At.loc_child h1 hi, idxOf_levels h1, Nat.zero_add, Nat.zero_add]
    · rintro ⟨p, i, c, h, rfl⟩
      obtain ⟨u, hu, hc⟩ := h.parent
      obtain ⟨j, h1, h2⟩ := hu.get
      have hi : i < (drawn md p.length u).length := (List.getElem?_eq_some_iff.mp hc).1
      refine ⟨p.length, by omega, ?_, mem_edgesOf.mpr ⟨j, (p, u), i, h1, hi, ?_⟩⟩
      · have := hu.size
        omega
      · rw [At.loc_child h1 hi, h2, Nat.zero_add, Nat.zero_add]
  edges_nodup := (edgesFrom_nodup md t _ _).of_map _
  level p u h := rfl
  order p i j c d h h' hij := by
    obtain ⟨u, hu, hc⟩ := h.parent
    obtain ⟨u', hu', hd⟩ := h'.parent
    obtain rfl := hu.unique hu'
    obtain ⟨k, h1, h2⟩ := hu.get
    rw [At.loc_child h1 (List.getElem?_eq_some_iff.mp hc).1, At.loc_child h1 (List.getElem?_eq_some_iff.mp hd).1]
    simp only
    omega

/-- `dotprint` ends and draws the tree: one node for every sub-expression down to `maxdepth`, edges from each to its operands -/
theorem C75_dotprint (md : Option ℕ) (t : Tree α) : ∃ g loc, Returns md t g ∧ Draws md t g loc := by
  refine ⟨_, _, ?_, draws md t⟩
  obtain ⟨N, h⟩ := loop_all md t (sizeOf t + 1) 0 (by rw [Nat.zero_add]; exact levels_empty md t)
  exact ⟨N, fun n hn => h n hn _ fun _ _ => rfl⟩

/-- the result is unique -/
theorem C75_unique (md : Option ℕ) (t : Tree α) (g g' : Graph α) (h : Returns md t g) (h' : Returns md t g') : g = g' := by
  obtain ⟨N, h⟩ := h
  obtain ⟨M, h'⟩ := h'
  have := (h (max N M) (le_max_left ..)).symm.trans (h' (max N M) (le_max_right ..))
  simpa using this

/-- `A * (B + C) * B`: the repeated operand is drawn twice; with `maxdepth=1` the sum is a leaf -/
def ex : Tree String := .node "Times" [.node "A" [], .node "Plus" [.node "B" [], .node "C" []], .node "B" []]

theorem C75_example : loop none 6 [(0, 0, ex)] (fun _ => 0) = some ⟨
    [((0, 0), "Times", false), ((1, 0), "A", true), ((1, 1), "Plus", false), ((1, 2), "B", true), ((2, 0), "B", true), ((2, 1), "C", true)],
    [((0, 0), (1, 0)), ((0, 0), (1, 1)), ((0, 0), (1, 2)), ((1, 1), (2, 0)), ((1, 1), (2, 1))]⟩ ∧
    loop (some 1) 4 [(0, 0, ex)] (fun _ => 0) = some ⟨[((0, 0), "Times", false), ((1, 0), "A", true), ((1, 1), "Plus", true), ((1, 2), "B", true)],
      [((0, 0), (1, 0)), ((0, 0), (1, 1)), ((0, 0), (1, 2))]⟩ := ⟨rfl, rfl⟩

/-- With `repeat=False` nodes are identified by the expression alone. Together with `maxdepth` one expression can then get two different descriptions: here `P = B + C` is drawn as a leaf and as an operation. -/
theorem C75_refuted_repeat : ∃ (t : Tree String) (g : Graph String), Returns (some 2) t g ∧ ∃ x ∈ g.nodes, ∃ y ∈ g.nodes, x.2.1 = y.2.1 ∧ x.2.2 ≠ y.2.2 := by
  let P : Tree String := .node "P" [.node "B" [], .node "C" []]
  obtain ⟨g, loc, h, hd⟩ := C75_dotprint (some 2) (.node "Times" [P, .node "Neg" [P]])
  refine ⟨_, g, h, (loc [0], "P", false), (hd.nodes _).mpr ⟨[0], P, ?_, rfl⟩, (loc [1, 0], "P", true), (hd.nodes _).mpr ⟨[1, 0], P, ?_, rfl⟩, rfl, by simp⟩
  · exact .child (p := []) .root (by rintro m ⟨⟩; decide) rfl
  · exact .child (p := [1]) (.child (p := []) .root (by rintro m ⟨⟩; decide) rfl) (by rintro m ⟨⟩; decide) rfl

end QNET.Dot
