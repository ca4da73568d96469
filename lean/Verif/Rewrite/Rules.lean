import Verif.Rewrite.Model

/-!
# C42: rule application with an explicit stack
-/

namespace QNET.Rewrite

open QNET.Pattern (Ex)

mutual
/-- Specification: bottom-up rewriting by structural recursion: rewrite the arguments and the keyword arguments from left to right,
rebuild the expression, and rewrite it. -/
def bottomUp (mk : Mk) (f : Ex → Res Ex) : Ex → Res Ex
  | .leaf a => f (.leaf a)
  | .node c as ks vs => do
    let as' ← bottomUpL mk f as
    let vs' ← bottomUpL mk f vs
    let e ← mk c as' ks vs'
    f e
/-- lists of arguments, from left to right -/
def bottomUpL (mk : Mk) (f : Ex → Res Ex) : List Ex → Res (List Ex)
  | [] => .ok []
  | a :: as => do
    let x ← bottomUp mk f a
    let xs ← bottomUpL mk f as
    .ok (x :: xs)
end

variable {mk : Mk} {f : Ex → Res Ex}

theorem bottomUpL_append (l m : List Ex) : bottomUpL mk f (l ++ m) = (do
    let x ← bottomUpL mk f l
    let y ← bottomUpL mk f m
    .ok (x ++ y)) := by
  induction l with
  | nil =>
    simp only [List.nil_append, bottomUpL]
    cases bottomUpL mk f m <;> rfl
  | cons a l ih =>
    simp only [List.cons_append, bottomUpL]
    rw [ih]
    cases bottomUp mk f a with
    | error => rfl
    | ok x =>
      cases bottomUpL mk f l with
      | error => rfl
      | ok y => cases bottomUpL mk f m <;> rfl

theorem bottomUpL_length {l l' : List Ex} (h : bottomUpL mk f l = .ok l') : l'.length = l.length := by
  induction l generalizing l' with
  | nil => simp only [bottomUpL] at h; cases h; rfl
  | cons a l ih =>
    simp only [bottomUpL] at h
    cases h1 : bottomUp mk f a with
    | error x => rw [h1] at h; cases h
    | ok x =>
      cases h2 : bottomUpL mk f l with
      | error y => rw [h1, h2] at h; cases h
      | ok y =>
        rw [h1, h2] at h
        cases h
        simp [ih h2]

/-- a frame given by the list of all its items -/
def Frame.ofItems (c n : ℕ) (ks : List ℕ) (l : List Ex) (i : ℕ) : Frame := ⟨c, l.take n, ks, l.drop n, i⟩

theorem ofItems_get {c n : ℕ} {ks : List ℕ} {l : List Ex} (hn : n ≤ l.length) (i j : ℕ) : (Frame.ofItems c n ks l j).get i = l[i]? := by
  unfold Frame.get Frame.ofItems
  simp only [List.length_take, Nat.min_eq_left hn]
  split
  · rename_i h; rw [List.getElem?_take, if_pos h]
  · rename_i h; rw [List.getElem?_drop]; congr 1; omega

theorem ofItems_set {c n : ℕ} {ks : List ℕ} {l : List Ex} (hn : n ≤ l.length) (i j : ℕ) (e : Ex) :
    (Frame.ofItems c n ks l j).set i e = Frame.ofItems c n ks (l.set i e) j := by
  unfold Frame.set Frame.ofItems
  simp only [List.length_take, Nat.min_eq_left hn]
  split
  · rename_i h
    rw [List.take_set, List.drop_set_of_lt h]
  · rename_i h
    rw [List.take_set_of_le (by omega), List.drop_set, if_neg (by omega)]

theorem ofItems_start (c : ℕ) (as : List Ex) (ks : List ℕ) (vs : List Ex) : Frame.start c as ks vs = Frame.ofItems c as.length ks (as ++ vs) 0 := by
  simp [Frame.start, Frame.ofItems]

/-- going on with the result of the topmost entry of the stack -/
def resume (mk : Mk) (f : Ex → Res Ex) (m : ℕ) (v : Ex) : List Frame → Option (Res Ex)
  | [] => some (.ok v)
  | g :: gs => run mk f m ((g.set g.i v).next :: gs)

/-- what the machine has to do on an expression -/
def Works (mk : Mk) (f : Ex → Res Ex) (e : Ex) : Prop :=
  ∀ c as ks vs, e = .node c as ks vs → ∀ rest, ∃ n, ∀ m, run mk f (n + m) (Frame.start c as ks vs :: rest) =
    match bottomUp mk f e with
    | .error x => some (.error x)
    | .ok v => resume mk f m v rest

theorem items_work {c n : ℕ} {ks : List ℕ} {rest : List Frame} : ∀ (todo done : List Ex), (∀ e ∈ todo, Works mk f e) → n ≤ (done ++ todo).length →
    ∃ N, ∀ m, run mk f (N + m) (Frame.ofItems c n ks (done ++ todo) done.length :: rest) =
      match bottomUpL mk f todo with
      | .error x => some (.error x)
      | .ok l => run mk f m (Frame.ofItems c n ks (done ++ l) (done ++ l).length :: rest)
  | [], done, _, _ => ⟨0, fun m => by simp [bottomUpL]⟩
  | e :: todo, done, hw, hn => by
    -- one item
    have key : ∃ N, ∀ m, run mk f (N + m) (Frame.ofItems c n ks (done ++ e :: todo) done.length :: rest) =
        match bottomUp mk f e with
        | .error x => some (.error x)
        | .ok v => run mk f m (Frame.ofItems c n ks ((done ++ [v]) ++ todo) (done ++ [v]).length :: rest) := by
      have hget : (Frame.ofItems c n ks (done ++ e :: todo) done.length).get done.length = some e := by
        rw [ofItems_get hn]; simp
      have hset : ∀ v, ((Frame.ofItems c n ks (done ++ e :: todo) done.length).set done.length v).next =
          Frame.ofItems c n ks ((done ++ [v]) ++ todo) (done ++ [v]).length := by
        intro v
        rw [ofItems_set hn]
        simp [Frame.next, Frame.ofItems]
      cases e with
      | leaf a =>
        refine ⟨1, fun m => ?_⟩
        rw [Nat.add_comm, run]
        simp only [step, Frame.ofItems] at hget ⊢
        rw [hget]
        simp only [bottomUp]
        cases f (.leaf a) with
        | error x => rfl
        | ok v => exact congrArg (fun fr => run mk f m (fr :: rest)) (hset v)
      | node d as ls vs =>
        obtain ⟨N, hN⟩ := hw (.node d as ls vs) (by simp) d as ls vs rfl (Frame.ofItems c n ks (done ++ Ex.node d as ls vs :: todo) done.length :: rest)
        refine ⟨N + 1, fun m => ?_⟩
        rw [show N + 1 + m = (N + m) + 1 by omega, run]
        have hstep : step mk f (Frame.ofItems c n ks (done ++ Ex.node d as ls vs :: todo) done.length :: rest) =
            .ok (.inl (Frame.start d as ls vs :: Frame.ofItems c n ks (done ++ Ex.node d as ls vs :: todo) done.length :: rest)) := by
          simp only [step]
          rw [show (Frame.ofItems c n ks (done ++ Ex.node d as ls vs :: todo) done.length).i = done.length from rfl, hget]
        rw [hstep]
        dsimp only
        rw [hN m]
        cases bottomUp mk f (.node d as ls vs) with
        | error x => rfl
        | ok v => exact congrArg (fun fr => run mk f m (fr :: rest)) (hset v)
    obtain ⟨N1, h1⟩ := key
    simp only [bottomUpL]
    cases hv : bottomUp mk f e with
    | error x =>
      refine ⟨N1, fun m => ?_⟩
      rw [h1 m, hv]
      rfl
    | ok v =>
      obtain ⟨N2, h2⟩ := items_work (c := c) (n := n) (ks := ks) (rest := rest) todo (done ++ [v]) (fun x hx => hw x (by simp [hx]))
        (by simp at hn ⊢; omega)
      refine ⟨N1 + N2, fun m => ?_⟩
      rw [Nat.add_assoc, h1 (N2 + m), hv]
      dsimp only
      rw [h2 m]
      cases bottomUpL mk f todo with
      | error x => rfl
      | ok l => simp [bind, Except.bind]

mutual
theorem works : ∀ e : Ex, Works mk f e
  | .leaf a => by intro c as ks vs h; cases h
  | .node c as ks vs => by
    intro c' as' ks' vs' h rest
    injection h with h1 h2 h3 h4
    subst h1 h2 h3 h4
    have hw : ∀ e ∈ as ++ vs, Works mk f e := by
      intro e he
      rcases List.mem_append.mp he with h | h
      · exact worksL as e h
      · exact worksL vs e h
    obtain ⟨N, hN⟩ := items_work (mk := mk) (f := f) (c := c) (n := as.length) (ks := ks) (rest := rest) (as ++ vs) [] hw (by simp)
    refine ⟨N + 1, fun m => ?_⟩
    rw [ofItems_start, show N + 1 + m = N + (m + 1) by omega]
    have := hN (m + 1)
    simp only [List.nil_append, List.length_nil] at this
    rw [this, bottomUpL_append]
    simp only [bottomUp]
    cases h1 : bottomUpL mk f as with
    | error x => rfl
    | ok as' =>
      cases h2 : bottomUpL mk f vs with
      | error x => rfl
      | ok vs' =>
        have hlen := bottomUpL_length h1
        simp only [bind, Except.bind]
        rw [run]
        have hget : (Frame.ofItems c as.length ks (as' ++ vs') (as' ++ vs').length).get (as' ++ vs').length = none := by
          rw [ofItems_get (by simp [hlen])]; simp
        simp only [step]
        rw [show (Frame.ofItems c as.length ks (as' ++ vs') (as' ++ vs').length).i = (as' ++ vs').length from rfl, hget]
        simp only [Frame.ofItems, ← hlen, List.take_left', List.drop_left']
        cases mk c as' ks vs' with
        | error x => rfl
        | ok e =>
          cases hf : f e with
          | error x => simp [bind, Except.bind, hf]
          | ok v => cases rest <;> simp [bind, Except.bind, hf, resume]
theorem worksL : ∀ l : List Ex, ∀ e ∈ l, Works mk f e
  | [], e, h => by simp at h
  | a :: l, e, h => by
    rcases List.mem_cons.mp h with h | h
    · rw [h]; exact works a
    · exact worksL l e h
end

/-- C42: `_apply_rules` ends - with a result or an exception - after finitely many passes of its loop, and then has done exactly the
bottom-up traversal, for every expression, every instantiation function and all rules. -/
theorem C42_stack_is_recursion (mk : Mk) (f : Ex → Res Ex) (e : Ex) : ∃ N, ∀ n, N ≤ n → applyRulesStack mk f n e = some (bottomUp mk f e) := by
  cases e with
  | leaf a => exact ⟨0, fun n _ => rfl⟩
  | node c as ks vs =>
    obtain ⟨N, hN⟩ := works (mk := mk) (f := f) (.node c as ks vs) c as ks vs rfl []
    refine ⟨N, fun n hn => ?_⟩
    have := hN (n - N)
    rw [show N + (n - N) = n by omega] at this
    simp only [applyRulesStack]
    rw [this]
    cases bottomUp mk f (.node c as ks vs) <;> rfl

/-- C42: a result, if there is one, does not depend on the number of passes allowed. -/
theorem run_mono : ∀ {n m : ℕ} {st : List Frame} {r : Res Ex}, n ≤ m → run mk f n st = some r → run mk f m st = some r
  | 0, _, _, _, _, h => by simp [run] at h
  | n + 1, 0, _, _, h, _ => by omega
  | n + 1, m + 1, st, r, hnm, h => by
    rw [run] at h ⊢
    revert h
    cases step mk f st with
    | error x => exact id
    | ok s =>
      cases s with
      | inr v => exact id
      | inl st' => exact fun h => run_mono (Nat.le_of_succ_le_succ hnm) h

theorem C42_result_unique (mk : Mk) (f : Ex → Res Ex) (e : Ex) {n : ℕ} {r : Res Ex} (h : applyRulesStack mk f n e = some r) : r = bottomUp mk f e := by
  obtain ⟨N, hN⟩ := C42_stack_is_recursion mk f e
  have h1 := hN (max n N) (Nat.le_max_right ..)
  cases e with
  | leaf a => simp only [applyRulesStack, Option.some.injEq] at h; rw [← h]; rfl
  | node c as ks vs =>
    simp only [applyRulesStack] at h h1
    rw [run_mono (Nat.le_max_left n N) h] at h1
    injection h1

/-- `expr.apply_rules(rules, recursive)` for an expression, lines 535-575 -/
def applyRulesMethod (mk : Mk) (f : Ex → Res Ex) (fuel : ℕ) (recursive : Bool) (c : ℕ) (as : List Ex) (ks : List ℕ) (vs : List Ex) : Option (Res Ex) :=
  let go (l : List Ex) : Option (Res (List Ex)) := if recursive then
      l.foldr (fun a acc => match applyRulesStack mk f fuel a, acc with
        | some (.error x), _ => some (.error x)
        | some (.ok v), some r => some (r.map (v :: ·))
        | _, _ => none) (some (.ok []))
    else some (.ok l)
  match go as, go vs with
  | some (.error x), _ => some (.error x)
  | some (.ok as'), some (.ok vs') => some (do let e ← mk c as' ks vs'; f e)
  | some (.ok _), some (.error x) => some (.error x)
  | _, _ => none

/-- C42 for the method `apply_rules`: the whole expression is rewritten bottom-up, the expression itself included. -/
theorem C42_apply_rules (mk : Mk) (f : Ex → Res Ex) (c : ℕ) (as : List Ex) (ks : List ℕ) (vs : List Ex) :
    ∃ N, ∀ n, N ≤ n → applyRulesMethod mk f n true c as ks vs = some (bottomUp mk f (.node c as ks vs)) := by
  have hgo : ∀ l : List Ex, ∃ N, ∀ n, N ≤ n → l.foldr (fun a acc => match applyRulesStack mk f n a, acc with
        | some (.error x), _ => some (.error x)
        | some (.ok v), some r => some (r.map (v :: ·))
        | _, _ => none) (some (.ok [])) = some (bottomUpL mk f l) := by
    intro l
    induction l with
    | nil => exact ⟨0, fun _ _ => rfl⟩
    | cons a l ih =>
      obtain ⟨N1, h1⟩ := ih
      obtain ⟨N2, h2⟩ := C42_stack_is_recursion mk f a
      refine ⟨max N1 N2, fun n hn => ?_⟩
      rw [List.foldr_cons, h1 n (by omega), h2 n (by omega)]
      simp only [bottomUpL]
      cases bottomUp mk f a with
      | error x => rfl
      | ok v => cases bottomUpL mk f l <;> rfl
  obtain ⟨N1, h1⟩ := hgo as
  obtain ⟨N2, h2⟩ := hgo vs
  refine ⟨max N1 N2, fun n hn => ?_⟩
  unfold applyRulesMethod
  simp only [if_true]
  rw [h1 n (by omega), h2 n (by omega)]
  simp only [bottomUp]
  cases bottomUpL mk f as with
  | error x => rfl
  | ok as' => cases bottomUpL mk f vs <;> rfl

/-- a concrete case: the rule `node 2 [x] → x`, in `node 0 [node 1 [node 2 [leaf 5]]] {7: node 2 [leaf 6]}` -/
example : applyRulesStack (fun c as ks vs => .ok (.node c as ks vs)) (fun e => match e with | .node 2 [x] [] [] => .ok x | e => .ok e) 20
    (.node 0 [.node 1 [.node 2 [.leaf 5] [] []] [] []] [7] [.node 2 [.leaf 6] [] []]) =
    some (.ok (.node 0 [.node 1 [.leaf 5] [] []] [7] [.leaf 6])) := by rfl

end QNET.Rewrite
