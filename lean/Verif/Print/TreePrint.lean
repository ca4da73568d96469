import Mathlib.Data.List.Basic
import Mathlib.Data.List.Range
import Mathlib.Data.List.Lex
import Mathlib.Data.List.Nodup
import Mathlib.Tactic.Common

/-!
# `print_tree` and `tree` (C76)

Model of `/repo/src/qnet/printing/treeprinting.py` lines 38-133: the lines that are printed, as lists of characters. An object is represented by the text `render_head_repr` gives for it
(lines 68-69; it is not computed here), the text `srepr` gives for it, whether it is an instance of `exclude_type`, and its children.
-/

namespace QNET.TreePrint

abbrev Str := List Char

/-- the objects that are printed: with the attribute `operands` or without -/
inductive Obj where
  | op (text : Str) (excluded : Bool) (children : List Obj)
  | atom (text srepr : Str)

/-- `to_str` -/
def Obj.text : Obj → Str
  | .op s _ _ => s
  | .atom s _ => s

/-- the symbols used for drawing (lines 61-67) -/
structure Draw where
  /-- last child -/
  leaf : Str
  /-- other children -/
  branch : Str
  /-- a line to later children -/
  line : Char

def uni : Draw := ⟨['└', '─', ' '], ['├', '─', ' '], '│'⟩
def asc : Draw := ⟨['+', '-', ' '], ['+', '-', ' '], '|'⟩

/-- the keyword arguments `unicode`, `depth`, `srepr_leaves` -/
structure Opts where
  unicode : Bool := true
  depth : Option ℕ := none
  sreprLeaves : Bool := false

def Opts.draw (o : Opts) : Draw := if o.unicode then uni else asc

/-- `depth is not None and depth <= _level` (lines 85-87) -/
def Opts.stops (o : Opts) (level : ℕ) : Bool :=
  match o.depth with
  | none => false
  | some d => decide (d ≤ level)

mutual
/-- the body of the loop for one child (lines 89-110); `last` is `count == len(children)-1`. For a child with the attribute `operands` the recursive call (lines 74-87 with `_root=False`) has the padding `pad'`. -/
def printKid (o : Opts) (pad : Str) (last : Bool) (level : ℕ) : Obj → List Str
  | .op s ex cs =>
    let pad' := pad ++ [if last then ' ' else o.draw.line]
    (pad'.dropLast ++ (if last then o.draw.leaf else o.draw.branch) ++ s) :: (if ex || o.stops (level + 1) then [] else printKids o (pad' ++ [' ', ' ']) (level + 1) cs)
  | .atom s r => [pad ++ (if last then o.draw.leaf else o.draw.branch) ++ (if o.sreprLeaves then r else s)]

/-- the loop over the children (lines 88-110) -/
def printKids (o : Opts) (pad : Str) (level : ℕ) : List Obj → List Str
  | [] => []
  | c :: rest => printKid o pad rest.isEmpty level c ++ printKids o pad level rest
end

/-- `print_tree` with `_print=False` (`_root=True`, lines 70-71, 78-110); `pad` is the argument `padding` -/
def printTree (o : Opts) (pad : Str) : Obj → List Str
  | .op s ex cs => ('.' :: ' ' :: s) :: (if ex || o.stops 0 then [] else printKids o (pad ++ [' ', ' ']) 0 cs)
  | .atom s _ => ['.' :: ' ' :: s]

/-- `"\n".join(lines)` -/
def join : List Str → Str
  | [] => []
  | [l] => l
  | l :: ls => l ++ '\n' :: join ls

/-- `tree` (lines 121-133) -/
def tree (o : Opts) (e : Obj) : Str := join (printTree o [] e)

/-! ### Specification -/

/-- ordered trees with a text at every node -/
inductive Tree where
  | node (text : Str) (kids : List Tree)

def Tree.text : Tree → Str
  | .node s _ => s
def Tree.kids : Tree → List Tree
  | .node _ cs => cs

mutual
/-- the part of the expression that is to be shown: nothing below objects of `exclude_type` and below the level `depth` -/
def shown (o : Opts) (level : ℕ) : Obj → Tree
  | .op s ex cs => .node s (if ex || o.stops level then [] else shownAll o (level + 1) cs)
  | .atom s r => .node (if o.sreprLeaves && decide (0 < level) then r else s) []
def shownAll (o : Opts) (level : ℕ) : List Obj → List Tree
  | [] => []
  | c :: cs => shown o level c :: shownAll o level cs
end

/-- the node at a position, a list of child numbers -/
def Tree.at : Tree → List ℕ → Option Tree
  | t, [] => some t
  | t, i :: p => match t.kids[i]? with
    | none => none
    | some c => c.at p

/-- the line for the position `p` below `t`, after the indentation: for each ancestor below the root a column that is empty if the ancestor is the last child of its parent and shows a line otherwise; then
a corner or a branch, and the text -/
def lineAt (d : Draw) : Tree → List ℕ → Str
  | t, [] => t.text
  | t, i :: p => match t.kids[i]? with
    | none => []
    | some c =>
      match p with
      | [] => (if i + 1 = t.kids.length then d.leaf else d.branch) ++ c.text
      | _ :: _ => (if i + 1 = t.kids.length then ' ' else d.line) :: ' ' :: ' ' :: lineAt d c p

/-- the line for a position of the whole tree -/
def fullLine (d : Draw) (pad : Str) (t : Tree) : List ℕ → Str
  | [] => '.' :: ' ' :: t.text
  | p => pad ++ ' ' :: ' ' :: lineAt d t p

/-- the positions of the tree in the order of the lines: lexicographic order, so every node comes before its descendants and these before the next sibling -/
structure Positions (t : Tree) (ps : List (List ℕ)) : Prop where
  complete : ∀ p, p ∈ ps ↔ (t.at p).isSome
  sorted : ps.Pairwise (· < ·)

/-! ### The lines -/

mutual
def pos : Tree → List (List ℕ)
  | .node _ cs => [] :: posFrom 0 cs
def posFrom (i : ℕ) : List Tree → List (List ℕ)
  | [] => []
  | c :: cs => (pos c).map (List.cons i) ++ posFrom (i + 1) cs
end

theorem mem_posFrom_head {i : ℕ} : ∀ {cs : List Tree} {p : List ℕ}, p ∈ posFrom i cs → ∃ j q, i ≤ j ∧ p = j :: q
  | [], p, h => by simp [posFrom] at h
  | c :: cs, p, h => by
    rw [posFrom, List.mem_append] at h
    rcases h with h | h
    · obtain ⟨q, -, rfl⟩ := List.mem_map.mp h
      exact ⟨i, q, le_rfl, rfl⟩
    · obtain ⟨j, q, h1, rfl⟩ := mem_posFrom_head h
      exact ⟨j, q, by omega, rfl⟩

mutual
theorem mem_pos : ∀ (t : Tree) (p : List ℕ), p ∈ pos t ↔ (t.at p).isSome
  | .node s cs, [] => by simp [pos, Tree.at]
  | .node s cs, i :: p => by
    have := mem_posFrom cs 0 i p
    rw [Nat.zero_add] at this
    rw [pos, List.mem_cons, this]
    simp [Tree.at, Tree.kids]
theorem mem_posFrom : ∀ (cs : List Tree) (k i : ℕ) (p : List ℕ), (k + i) :: p ∈ posFrom k cs ↔ (Tree.at (.node [] cs) (i :: p)).isSome
  | [], k, i, p => by simp [posFrom, Tree.at, Tree.kids]
  | c :: cs, k, 0, p => by
    rw [posFrom, List.mem_append, List.mem_map]
    have h : ¬ (k + 0) :: p ∈ posFrom (k + 1) cs := by
      intro h
      obtain ⟨j, q, h1, h2⟩ := mem_posFrom_head h
      injection h2 with h2
      omega
    simp only [h, or_false, Tree.at, Tree.kids, List.getElem?_cons_zero, ← mem_pos c p]
    constructor
    · rintro ⟨q, h1, h2⟩
      injection h2 with h2 h3
      exact h3 ▸ h1
    · intro h1
      exact ⟨p, h1, rfl⟩
  | c :: cs, k, i + 1, p => by
    rw [posFrom, List.mem_append, List.mem_map, show k + (i + 1) = k + 1 + i by omega, mem_posFrom cs (k + 1) i p]
    have h : ¬ ∃ a ∈ pos c, k :: a = (k + 1 + i) :: p := by
      rintro ⟨q, h1, h2⟩
      injection h2 with h2
      omega
    simp only [h, false_or, Tree.at, Tree.kids, List.getElem?_cons_succ]
end

mutual
theorem sorted_pos : ∀ t : Tree, (pos t).Pairwise (· < ·)
  | .node s cs => by
    rw [pos, List.pairwise_cons]
    refine ⟨fun p h => ?_, sorted_posFrom cs 0⟩
    obtain ⟨j, q, -, rfl⟩ := mem_posFrom_head h
    exact List.Lex.nil
theorem sorted_posFrom : ∀ (cs : List Tree) (i : ℕ), (posFrom i cs).Pairwise (· < ·)
  | [], i => by simp [posFrom]
  | c :: cs, i => by
    rw [posFrom, List.pairwise_append]
    refine ⟨?_, sorted_posFrom cs (i + 1), fun p hp q hq => ?_⟩
    · rw [List.pairwise_map]
      exact (sorted_pos c).imp fun h => List.Lex.cons h
    · obtain ⟨p, -, rfl⟩ := List.mem_map.mp hp
      obtain ⟨j, q, hj, rfl⟩ := mem_posFrom_head hq
      exact List.Lex.rel (by omega)
end

theorem positions (t : Tree) : Positions t (pos t) := ⟨mem_pos t, sorted_pos t⟩

theorem shownAll_length (o : Opts) (level : ℕ) : ∀ cs : List Obj, (shownAll o level cs).length = cs.length
  | [] => rfl
  | c :: cs => by rw [shownAll, List.length_cons, List.length_cons, shownAll_length o level cs]

/-- the columns below one child -/
def under (d : Draw) (pad : Str) (last : Bool) (t : Tree) : List ℕ → Str
  | [] => pad ++ (if last then d.leaf else d.branch) ++ t.text
  | p => pad ++ (if last then ' ' else d.line) :: ' ' :: ' ' :: lineAt d t p

theorem lineAt_cons (d : Draw) (pad : Str) (t c : Tree) (i : ℕ) (p : List ℕ) (h : t.kids[i]? = some c) : pad ++ lineAt d t (i :: p) = under d pad (decide (i + 1 = t.kids.length)) c p := by
  cases p <;> simp [lineAt, under, h]

mutual
theorem printKid_eq (o : Opts) : ∀ (pad : Str) (last : Bool) (level : ℕ) (c : Obj), printKid o pad last level c = (pos (shown o (level + 1) c)).map (under o.draw pad last (shown o (level + 1) c))
  | pad, last, level, .atom s r => by
    simp only [printKid, shown, pos, posFrom, List.map_cons, List.map_nil, under, Tree.text]
    simp
  | pad, last, level, .op s ex cs => by
    rw [printKid, shown, pos, List.map_cons]
    congr 1
    · simp [under, Tree.text]
    · by_cases h : (ex || o.stops (level + 1)) = true
      · simp [posFrom, h]
      · rw [if_neg h, if_neg h]
        have := printKids_eq o (pad ++ [if last then ' ' else o.draw.line] ++ [' ', ' ']) (level + 1) (.node s (shownAll o (level + 1 + 1) cs)) [] cs rfl
        rw [this]
        refine List.map_congr_left fun p hp => ?_
        obtain ⟨j, q, -, rfl⟩ := mem_posFrom_head hp
        simp [under]
termination_by pad last level c => (sizeOf c, 0)
decreasing_by all_goals (simp_wf; omega)
theorem printKids_eq (o : Opts) : ∀ (pad : Str) (level : ℕ) (t : Tree) (pre : List Tree) (cs : List Obj), t.kids = pre ++ shownAll o (level + 1) cs →
    printKids o pad level cs = (posFrom pre.length (shownAll o (level + 1) cs)).map fun p => pad ++ lineAt o.draw t p
  | pad, level, t, pre, [], h => by simp [printKids, shownAll, posFrom]
  | pad, level, t, pre, c :: cs, h => by
    rw [printKids, shownAll, posFrom, List.map_append, List.map_map]
    congr 1
    · rw [printKid_eq o pad cs.isEmpty level c]
      refine List.map_congr_left fun p hp => ?_
      show _ = pad ++ lineAt o.draw t (pre.length :: p)
      rw [lineAt_cons o.draw pad t (shown o (level + 1) c) pre.length p (by rw [h, shownAll]; simp), h, shownAll]
      congr 1
      cases cs <;> simp [shownAll]
    · rw [printKids_eq o pad level t (pre ++ [shown o (level + 1) c]) cs (by rw [h, shownAll]; simp)]
      simp
termination_by pad level t pre cs => (sizeOf cs, 0)
decreasing_by all_goals (simp_wf; omega)
end

/-- **C76.** `print_tree` prints one line for every node of the expression that is to be shown, in the order of the positions, with the columns, corners and texts as described; for every expression and all options. -/
theorem C76_lines (o : Opts) (pad : Str) (e : Obj) : ∃ ps, Positions (shown o 0 e) ps ∧ printTree o pad e = ps.map (fullLine o.draw pad (shown o 0 e)) := by
  refine ⟨_, positions _, ?_⟩
  cases e with
  | atom s r => simp [printTree, shown, pos, posFrom, fullLine, Tree.text]
  | op s ex cs =>
    rw [printTree, shown, pos, List.map_cons]
    congr 1
    split_ifs with h
    · simp [posFrom]
    · have := printKids_eq o (pad ++ [' ', ' ']) 0 (.node s (shownAll o (0 + 1) cs)) [] cs rfl
      rw [this]
      refine List.map_congr_left fun p hp => ?_
      obtain ⟨j, q, -, rfl⟩ := mem_posFrom_head hp
      simp [fullLine]

/-- the positions are determined by the tree -/
theorem C76_positions_unique (t : Tree) (ps qs : List (List ℕ)) (h : Positions t ps) (h' : Positions t qs) : ps = qs := by
  have hp : ps.Perm qs := (List.perm_ext_iff_of_nodup (h.sorted.imp fun h => h.ne) (h'.sorted.imp fun h => h.ne)).mpr fun p => (h.complete p).trans (h'.complete p).symm
  exact hp.eq_of_pairwise (fun a b _ _ h1 h2 => absurd h2 (lt_asymm h1)) h.sorted h'.sorted

/-! ### Reading the tree back -/

/-- characters of the columns -/
def Draw.col (d : Draw) (c : Char) : Bool := c == ' ' || c == d.line

/-- the symbols that can be read back: the first characters of corner and branch differ from the characters of the columns -/
structure Draw.Good (d : Draw) : Prop where
  leaf : ∃ c l, d.leaf = c :: l ∧ l.length = 2 ∧ d.col c = false
  branch : ∃ c l, d.branch = c :: l ∧ l.length = 2 ∧ d.col c = false

theorem good (o : Opts) : o.draw.Good := by
  rw [Opts.draw]
  split_ifs
  · exact ⟨⟨_, _, rfl, rfl, by decide⟩, ⟨_, _, rfl, rfl, by decide⟩⟩
  · exact ⟨⟨_, _, rfl, rfl, by decide⟩, ⟨_, _, rfl, rfl, by decide⟩⟩

/-- the number of characters of the columns, and what follows the corner or branch -/
def scan (d : Draw) (s : Str) : ℕ × Str := ((s.takeWhile d.col).length, (s.dropWhile d.col).drop 3)

theorem scan_append (d : Draw) (pad rest : Str) (hp : ∀ c ∈ pad, d.col c = true) : scan d (pad ++ rest) = (pad.length + (scan d rest).1, (scan d rest).2) := by
  induction pad with
  | nil => simp
  | cons c cs ih =>
    have hc := hp c (by simp)
    have := ih fun c h => hp c (by simp [h])
    simp only [scan, List.cons_append, List.takeWhile_cons, hc, List.dropWhile_cons, if_true, List.length_cons, Prod.mk.injEq] at this ⊢
    exact ⟨by omega, this.2⟩

theorem scan_corner {d : Draw} (hd : d.Good) (last : Bool) (s : Str) : scan d ((if last then d.leaf else d.branch) ++ s) = (0, s) := by
  obtain ⟨⟨c, l, h1, h2, h3⟩, ⟨c', l', h1', h2', h3'⟩⟩ := hd
  cases last
  · simp [h1', scan, h3', h2']
  · simp [h1, scan, h3, h2]

theorem scan_lineAt {d : Draw} (hd : d.Good) : ∀ (p : List ℕ) (t u : Tree), t.at p = some u → p ≠ [] → scan d (lineAt d t p) = (3 * (p.length - 1), u.text)
  | [], t, u, h, hne => absurd rfl hne
  | [i], t, u, h, _ => by
    rw [Tree.at] at h
    rw [lineAt]
    cases hc : t.kids[i]? with
    | none => simp [hc] at h
    | some c =>
      simp only [hc, Tree.at, Option.some.injEq] at h ⊢
      subst h
      have := scan_corner hd (decide (i + 1 = t.kids.length)) c.text
      simpa using this
  | i :: j :: p, t, u, h, _ => by
    rw [Tree.at] at h
    rw [lineAt]
    cases hc : t.kids[i]? with
    | none => simp [hc] at h
    | some c =>
      simp only [hc] at h ⊢
      have ih := scan_lineAt hd (j :: p) c u h (by simp)
      have := scan_append d [if i + 1 = t.kids.length then ' ' else d.line, ' ', ' '] (lineAt d c (j :: p)) (by
        intro x hx
        simp only [List.mem_cons, List.not_mem_nil, or_false] at hx
        rcases hx with rfl | rfl | rfl
        · split_ifs <;> simp [Draw.col]
        · simp [Draw.col]
        · simp [Draw.col])
      simp only [List.cons_append, List.nil_append] at this
      rw [this, ih]
      simp
      omega

mutual
/-- depth and text of every node in the order of the positions -/
def seq (k : ℕ) : Tree → List (ℕ × Str)
  | .node s cs => (k, s) :: seqAll (k + 1) cs
def seqAll (k : ℕ) : List Tree → List (ℕ × Str)
  | [] => []
  | c :: cs => seq k c ++ seqAll k cs
end

theorem at_isSome_of_mem {t : Tree} {p : List ℕ} (h : p ∈ pos t) : ∃ u, t.at p = some u := Option.isSome_iff_exists.mp ((mem_pos t p).mp h)

/-- depth and text of a position -/
def info (k : ℕ) (t : Tree) (p : List ℕ) : ℕ × Str := (k + p.length, ((t.at p).map Tree.text).getD [])

mutual
theorem seq_eq : ∀ (k : ℕ) (t : Tree), (pos t).map (info k t) = seq k t
  | k, .node s cs => by
    rw [pos, List.map_cons, seq, ← seqAll_eq k (.node s cs) [] cs rfl]
    simp [info, Tree.at, Tree.text]
theorem seqAll_eq : ∀ (k : ℕ) (t : Tree) (pre cs : List Tree), t.kids = pre ++ cs → (posFrom pre.length cs).map (info k t) = seqAll (k + 1) cs
  | k, t, pre, [], h => by simp [posFrom, seqAll]
  | k, t, pre, c :: cs, h => by
    rw [posFrom, List.map_append, seqAll, List.map_map]
    congr 1
    · rw [← seq_eq (k + 1) c]
      refine List.map_congr_left fun p _ => ?_
      simp [info, Tree.at, h]
      omega
    · have := seqAll_eq k t (pre ++ [c]) cs (by rw [h]; simp)
      simpa using this
end

theorem seq_head (k : ℕ) (t : Tree) : ∃ l, seq k t = (k, t.text) :: l ∧ l = seqAll (k + 1) t.kids := by
  cases t
  exact ⟨_, by rw [seq]; rfl, rfl⟩

theorem le_seqAll {k : ℕ} {x : ℕ × Str} : ∀ {cs : List Tree}, x ∈ seqAll k cs → k ≤ x.1 := by
  have key : ∀ n : ℕ, ∀ cs : List Tree, sizeOf cs < n → ∀ k x, x ∈ seqAll k cs → k ≤ x.1 := by
    intro n
    induction n with
    | zero => intro cs h; omega
    | succ n ih =>
      intro cs h k x hx
      cases cs with
      | nil => simp [seqAll] at hx
      | cons c cs =>
        rw [seqAll, List.mem_append] at hx
        rcases hx with hx | hx
        · cases c with
          | node s ds =>
            rw [seq, List.mem_cons] at hx
            rcases hx with rfl | hx
            · exact le_rfl
            · have := ih ds (by simp at h; omega) (k + 1) x hx
              omega
        · exact ih cs (by simp at h; omega) k x hx
  intro cs
  exact key _ cs (Nat.lt_succ_self _) k x

/-- what follows a subtree begins with a node that is not deeper -/
theorem append_split {k : ℕ} {a a' b b' : List (ℕ × Str)} (ha : ∀ x ∈ a, k < x.1) (ha' : ∀ x ∈ a', k < x.1) (hb : ∀ x ∈ b.head?, x.1 ≤ k) (hb' : ∀ x ∈ b'.head?, x.1 ≤ k)
    (h : a ++ b = a' ++ b') : a = a' ∧ b = b' := by
  induction a generalizing a' with
  | nil =>
    cases a' with
    | nil => exact ⟨rfl, h⟩
    | cons y a' =>
      have h1 := ha' y (by simp)
      have h2 := hb y (by rw [List.nil_append] at h; rw [h]; simp)
      omega
  | cons x a ih =>
    cases a' with
    | nil =>
      have h1 := ha x (by simp)
      have h2 := hb' x (by rw [List.nil_append] at h; rw [← h]; simp)
      omega
    | cons y a' =>
      injection h with h1 h2
      obtain ⟨h3, h4⟩ := ih (fun x h => ha x (by simp [h])) (fun x h => ha' x (by simp [h])) h2
      exact ⟨by rw [h1, h3], h4⟩

theorem seqAll_inj : ∀ (n k : ℕ) (cs ds : List Tree), sizeOf cs < n → seqAll k cs = seqAll k ds → cs = ds
  | 0, k, cs, ds, hn, h => by omega
  | n + 1, k, [], [], hn, h => rfl
  | n + 1, k, [], .node s es :: ds, hn, h => by simp [seqAll, seq] at h
  | n + 1, k, .node s es :: cs, [], hn, h => by simp [seqAll, seq] at h
  | n + 1, k, .node s es :: cs, .node s' es' :: ds, hn, h => by
    simp only [seqAll, seq, List.cons_append, List.cons.injEq, Prod.mk.injEq, true_and] at h
    obtain ⟨rfl, h⟩ := h
    have hh : ∀ (ds : List Tree), ∀ x ∈ (seqAll k ds).head?, x.1 ≤ k := by
      intro ds x hx
      cases ds with
      | nil => simp [seqAll] at hx
      | cons c ds =>
        cases c
        simp [seqAll, seq] at hx
        simp [← hx]
    obtain ⟨h1, h2⟩ := append_split (k := k) (fun x hx => le_seqAll hx) (fun x hx => le_seqAll hx) (hh cs) (hh ds) h
    rw [seqAll_inj n (k + 1) es es' (by simp at hn; omega) h1, seqAll_inj n k cs ds (by simp at hn; omega) h2]

theorem seq_inj (k : ℕ) (t t' : Tree) (h : seq k t = seq k t') : t = t' := by
  have := seqAll_inj (sizeOf [t] + 1) k [t] [t'] (Nat.lt_succ_self _) (by simp [seqAll, h])
  simpa using this

/-- depth and text of the line of a position other than the root, the indentation being blank -/
def readLine (d : Draw) (n : ℕ) (s : Str) : ℕ × Str := (((scan d s).1 - n - 2) / 3 + 1, (scan d s).2)

/-- all lines -/
def readLines (d : Draw) (n : ℕ) : List Str → List (ℕ × Str)
  | [] => []
  | l :: ls => (0, l.drop 2) :: ls.map (readLine d n)

theorem readLine_full {d : Draw} (hd : d.Good) (pad : Str) (hp : ∀ c ∈ pad, c = ' ') (t : Tree) (p : List ℕ) (h : p ∈ pos t) (hne : p ≠ []) :
    readLine d pad.length (fullLine d pad t p) = info 0 t p := by
  obtain ⟨u, hu⟩ := at_isSome_of_mem h
  cases p with
  | nil => exact absurd rfl hne
  | cons i p =>
    have h1 := scan_append d (pad ++ [' ', ' ']) (lineAt d t (i :: p)) (by
      intro c hc
      have : c = ' ' := by
        rcases List.mem_append.mp hc with h | h
        · exact hp c h
        · simpa using h
      subst this
      simp [Draw.col])
    rw [scan_lineAt hd _ _ _ hu (by simp)] at h1
    rw [fullLine, show pad ++ ' ' :: ' ' :: lineAt d t (i :: p) = pad ++ [' ', ' '] ++ lineAt d t (i :: p) by simp, readLine, h1, info, hu]
    · simp
      omega
    · simp

theorem readLines_eq (o : Opts) (pad : Str) (hp : ∀ c ∈ pad, c = ' ') (e : Obj) : readLines o.draw pad.length (printTree o pad e) = seq 0 (shown o 0 e) := by
  obtain ⟨ps, h1, h2⟩ := C76_lines o pad e
  rw [C76_positions_unique _ _ _ h1 (positions _)] at h2
  rw [h2, ← seq_eq]
  generalize shown o 0 e = t
  cases t with
  | node s cs =>
    rw [pos, List.map_cons, readLines, List.map_cons, List.map_map]
    congr 1
    refine List.map_congr_left fun p hp' => ?_
    refine readLine_full (good o) pad hp _ p (by rw [pos]; simp [hp']) ?_
    obtain ⟨j, q, -, rfl⟩ := mem_posFrom_head hp'
    simp

/-- **C76.** The printed lines determine the tree that is shown: structure, order of the children and texts, whatever characters the texts contain. -/
theorem C76_readable (o : Opts) (n : ℕ) (e e' : Obj) (h : printTree o (List.replicate n ' ') e = printTree o (List.replicate n ' ') e') : shown o 0 e = shown o 0 e' := by
  have hp : ∀ c ∈ List.replicate n ' ', c = ' ' := fun c hc => (List.mem_replicate.mp hc).2
  have h1 := readLines_eq o _ hp e
  rw [h, readLines_eq o _ hp e'] at h1
  exact seq_inj 0 _ _ h1.symm

/-! ### The text -/

theorem join_inj : ∀ {ls ms : List Str}, (∀ l ∈ ls, '\n' ∉ l) → (∀ l ∈ ms, '\n' ∉ l) → ls ≠ [] → ms ≠ [] → join ls = join ms → ls = ms := by
  have key : ∀ (l m r r' : Str), '\n' ∉ l → '\n' ∉ m → l ++ '\n' :: r = m ++ '\n' :: r' → l = m ∧ r = r' := by
    intro l
    induction l with
    | nil =>
      intro m r r' _ hm h
      cases m with
      | nil => simpa using h
      | cons c m =>
        injection h with h1 h2
        subst h1
        simp at hm
    | cons c l ih =>
      intro m r r' hl hm h
      cases m with
      | nil =>
        injection h with h1 h2
        subst h1
        simp at hl
      | cons c' m =>
        injection h with h1 h2
        obtain ⟨h3, h4⟩ := ih m r r' (fun h => hl (by simp [h])) (fun h => hm (by simp [h])) h2
        exact ⟨by rw [h1, h3], h4⟩
  intro ls
  induction ls with
  | nil => intro ms _ _ h; exact absurd rfl h
  | cons l ls ih =>
    intro ms hl hm _ hne h
    cases ms with
    | nil => exact absurd rfl hne
    | cons m ms =>
      have hl0 := hl l (by simp)
      have hm0 := hm m (by simp)
      cases ls with
      | nil =>
        cases ms with
        | nil => simpa [join] using h
        | cons m' ms =>
          simp only [join] at h
          rw [h] at hl0
          simp at hl0
      | cons l' ls =>
        cases ms with
        | nil =>
          simp only [join] at h
          rw [← h] at hm0
          simp at hm0
        | cons m' ms =>
          obtain ⟨h1, h2⟩ := key l m (join (l' :: ls)) (join (m' :: ms)) hl0 hm0 h
          rw [h1, ih (ms := m' :: ms) (fun l h => hl l (List.mem_cons_of_mem _ h)) (fun l h => hm l (List.mem_cons_of_mem _ h)) (by simp) (by simp) h2]

/-- every text of the tree is on one line -/
def OneLine (t : Tree) : Prop := ∀ p u, t.at p = some u → '\n' ∉ u.text

theorem draw_newline (o : Opts) : '\n' ∉ o.draw.leaf ∧ '\n' ∉ o.draw.branch ∧ '\n' ≠ o.draw.line := by
  rw [Opts.draw]
  split_ifs <;> decide

theorem lineAt_newline (o : Opts) : ∀ (p : List ℕ) (t : Tree), OneLine t → '\n' ∉ lineAt o.draw t p
  | [], t, h => h [] t (by simp [Tree.at])
  | [i], t, h => by
    rw [lineAt]
    obtain ⟨h1, h2, h3⟩ := draw_newline o
    cases hc : t.kids[i]? with
    | none => simp
    | some c =>
      have hc' := h [i] c (by simp [Tree.at, hc])
      simp only [List.mem_append, not_or]
      exact ⟨by split_ifs <;> assumption, hc'⟩
  | i :: j :: p, t, h => by
    rw [lineAt]
    obtain ⟨h1, h2, h3⟩ := draw_newline o
    cases hc : t.kids[i]? with
    | none => simp
    | some c =>
      have ih := lineAt_newline o (j :: p) c fun q u hq => h (i :: q) u (by simp [Tree.at, hc, hq])
      simp only [List.mem_cons, not_or]
      exact ⟨by split_ifs; decide; exact h3, by decide, by decide, ih⟩

theorem lines_newline (o : Opts) (e : Obj) (h : OneLine (shown o 0 e)) : ∀ l ∈ printTree o [] e, '\n' ∉ l := by
  obtain ⟨ps, -, h2⟩ := C76_lines o [] e
  rw [h2]
  intro l hl
  obtain ⟨p, -, rfl⟩ := List.mem_map.mp hl
  cases p with
  | nil =>
    have := h [] _ (by rw [Tree.at])
    simp [fullLine, this]
  | cons i p =>
    have := lineAt_newline o (i :: p) _ h
    simp [fullLine, this]

theorem printTree_ne (o : Opts) (pad : Str) (e : Obj) : printTree o pad e ≠ [] := by cases e <;> simp [printTree]

/-- **C76.** The string `tree` returns determines the tree that is shown, if no text of a node contains a line break. -/
theorem C76_string (o : Opts) (e e' : Obj) (h1 : OneLine (shown o 0 e)) (h2 : OneLine (shown o 0 e')) (h : tree o e = tree o e') : shown o 0 e = shown o 0 e' :=
  C76_readable o 0 e e' (join_inj (lines_newline o e h1) (lines_newline o e' h2) (printTree_ne o _ e) (printTree_ne o _ e') h)

/-! ### Examples -/

/-- `2 * (A + B) * C` -/
def ex : Obj := .op "Scaled(2)".toList false [.op "Times".toList false [.op "Plus".toList false [.atom "A".toList "OpA".toList, .atom "B".toList "OpB".toList], .atom "C".toList "OpC".toList]]

theorem C76_example : (printTree {} [] ex).map String.ofList = [". Scaled(2)", "  └─ Times", "     ├─ Plus", "     │  ├─ A", "     │  └─ B", "     └─ C"] ∧
    (printTree { unicode := false, sreprLeaves := true, depth := some 2 } [] ex).map String.ofList = [". Scaled(2)", "  +- Times", "     +- Plus", "     +- OpC"] := by
  constructor <;> decide +kernel

/-- every hypothesis of `C76_string` is met by the example -/
theorem C76_nonvacuous : OneLine (shown {} 0 ex) := by
  have key : ∀ p ∈ pos (shown {} 0 ex), '\n' ∉ (((shown {} 0 ex).at p).map Tree.text).getD [] := by decide +kernel
  intro p u h
  have := key p ((mem_pos _ p).mpr (by rw [h]; rfl))
  rwa [h] at this

/-- The argument `padding` is documented as the white space by which the entire tree is indented. The first line is not indented. -/
theorem C76_refuted_padding : ∃ (pad : Str) (e : Obj), pad ≠ [] ∧ (printTree {} pad e).head? = (printTree {} [] e).head? ∧ printTree {} pad e ≠ (printTree {} [] e).map (pad ++ ·) :=
  ⟨[' '], ex, by simp, rfl, by decide +kernel⟩

/-- With a line break in a name the strings of different expressions can be equal. -/
theorem C76_refuted_newline : ∃ e e' : Obj, tree { unicode := false } e = tree { unicode := false } e' ∧ shown {} 0 e ≠ shown {} 0 e' :=
  ⟨.op ['P'] false [.atom ['A'] [], .atom ['B'] []], .op ['P'] false [.atom "A\n  +- B".toList []], by decide +kernel, by simp [shown, shownAll, Opts.stops]⟩

end QNET.TreePrint
