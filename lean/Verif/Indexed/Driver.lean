import Mathlib.Algebra.BigOperators.Group.List.Basic
import Mathlib.Data.List.Sort
import Mathlib.Tactic.Ring

/-!
# C47: the loop of `indexed_sum_over_kronecker` (`src/qnet/algebra/core/algebraic_properties.py` lines 682-737)

`_deltasummation`, which eliminates one range, is a parameter (modelled in `Thm47` for the case of a solution): here is the loop that calls it for all ranges and all
summands, with a list that grows while it is traversed.
-/

namespace QNET.Driver

variable {T R M : Type}

/-- the flags of `_deltasummation`, lines 866-906 -/
inductive Flag
  /-- 1: the range has been eliminated -/
  | done
  /-- 2: nothing to do -/
  | same
  /-- 3: the term has been expanded to several summands -/
  | expanded
deriving DecidableEq

/-- what the loop uses: `_deltasummation`, and whether the index of a range occurs in the deltas, line 703 -/
structure Ops (T R : Type) where
  delta : T → List R → ℕ → List (T × List R) × Flag
  inDelta : R → Bool

/-- the variables of the loop: buffer, i, i_range (lines 698-700) -/
structure St (T R : Type) where
  buf : List (T × List R)
  i : ℕ
  iR : ℕ

/-- IndexError -/
inductive Err | index

/-- one run of the body of the loop, lines 702-725 -/
def step (O : Ops T R) (s : St T R) : Except Err (St T R) :=
  match s.buf[s.i]? with
  | none => .error .index
  | some (t, rs) =>
    match rs[s.iR]? with
    | none => .error .index
    | some r =>
      if O.inDelta r then
        match (O.delta t rs s.iR).1 with
        | [] => .error .index
        | item :: items =>
          let iR := if (O.delta t rs s.iR).2 = .same then s.iR + 1 else s.iR
          let buf := s.buf.take s.i ++ (item :: items) ++ s.buf.drop (s.i + 1)
          if iR ≥ item.2.length then .ok ⟨buf, s.i + 1, 0⟩ else .ok ⟨buf, s.i, iR⟩
      else if s.iR + 1 ≥ rs.length then .ok ⟨s.buf, s.i + 1, 0⟩ else .ok ⟨s.buf, s.i, s.iR + 1⟩

/-- the loop, line 701, for at most `n` rounds; the result is none if it is still running -/
def run (O : Ops T R) : ℕ → St T R → Except Err (Option (List (T × List R)))
  | 0, s => if s.i < s.buf.length then .ok none else .ok (some s.buf)
  | n + 1, s => if s.i < s.buf.length then step O s >>= run O n else .ok (some s.buf)

/-- the result, lines 726-737: none is "nothing could be resolved" -/
def finish [DecidableEq T] [DecidableEq R] (create : T → List R → M) (bare : T → M) (add : M → M → M) (term : T) (ranges : List R) : List (T × List R) → Option M
  | [] => none
  | x :: xs => if x :: xs = [(term, ranges)] then none
    else some (xs.foldl (fun acc y => add acc (if y.2.length > 0 then create y.1 y.2 else bare y.1)) (if x.2.length > 0 then create x.1 x.2 else bare x.1))

/-! ### specification -/

/-- what is known of `_deltasummation`: for terms that satisfy `P`, the result has the documented form, the value `V` (of the term summed over the ranges) is kept,
and expanding makes the terms smaller -/
structure Contract [AddCommMonoid M] (O : Ops T R) (V : T → List R → M) (P : T → List R → Prop) (w : T → ℕ) : Prop where
  shape : ∀ t rs k, P t rs → k < rs.length → (match (O.delta t rs k).2 with
    | .done => ∃ t', (O.delta t rs k).1 = [(t', rs.eraseIdx k)] ∧ w t' ≤ w t
    | .same => (O.delta t rs k).1 = [(t, rs)]
    | .expanded => (O.delta t rs k).1 ≠ [] ∧ ∀ x ∈ (O.delta t rs k).1, x.2 = rs ∧ w x.1 < w t)
  value : ∀ t rs k, P t rs → k < rs.length → ((O.delta t rs k).1.map fun x => V x.1 x.2).sum = V t rs
  keep : ∀ t rs k, P t rs → k < rs.length → ∀ x ∈ (O.delta t rs k).1, P x.1 x.2

/-! ### proofs -/

/-- several rounds -/
inductive Steps (O : Ops T R) : St T R → St T R → Prop
  | refl (s) : Steps O s s
  | head {s s' s''} : s.i < s.buf.length → step O s = .ok s' → Steps O s' s'' → Steps O s s''

theorem Steps.trans {O : Ops T R} {a b c : St T R} (h1 : Steps O a b) (h2 : Steps O b c) : Steps O a c := by
  induction h1 with
  | refl => exact h2
  | head k1 k2 _ ih => exact .head k1 k2 (ih h2)

theorem run_of_steps {O : Ops T R} {s s' : St T R} (h : Steps O s s') (he : ¬ s'.i < s'.buf.length) : ∃ n, run O n s = .ok (some s'.buf) := by
  induction h with
  | refl s => exact ⟨0, by rw [run, if_neg he]⟩
  | @head s s1 s2 k1 k2 _ ih =>
    obtain ⟨n, hn⟩ := ih he
    exact ⟨n + 1, by rw [run, if_pos k1, k2]; exact hn⟩

section
variable [AddCommMonoid M] {O : Ops T R} {V : T → List R → M} {P : T → List R → Prop} {w : T → ℕ}

/-- the value of a buffer -/
def total (V : T → List R → M) (l : List (T × List R)) : M := (l.map fun x => V x.1 x.2).sum

theorem getElem_mid (pre : List (T × List R)) (x : T × List R) (post : List (T × List R)) : (pre ++ x :: post)[pre.length]? = some x := by simp
theorem take_mid (pre : List (T × List R)) (x : T × List R) (post : List (T × List R)) : (pre ++ x :: post).take pre.length = pre := by simp
theorem drop_mid (pre : List (T × List R)) (x : T × List R) (post : List (T × List R)) : (pre ++ x :: post).drop (pre.length + 1) = post := by
  rw [show pre ++ x :: post = (pre ++ [x]) ++ post by simp, List.drop_left' (by simp)]

/-- one item is processed completely -/
def Passes (O : Ops T R) (V : T → List R → M) (pre : List (T × List R)) (x : T × List R) (post : List (T × List R)) (k : ℕ) : Prop :=
  ∃ ys, Steps O ⟨pre ++ x :: post, pre.length, k⟩ ⟨pre ++ ys ++ post, pre.length + ys.length, 0⟩ ∧ total V ys = V x.1 x.2

/-- several items are processed, the first one from range `k` on -/
theorem passes_list {n : ℕ} (ih : ∀ x : T × List R, w x.1 < n → P x.1 x.2 → ∀ k < x.2.length, ∀ pre post, Passes O V pre x post k) :
    ∀ (l : List (T × List R)), (∀ x ∈ l, w x.1 < n ∧ P x.1 x.2 ∧ 0 < x.2.length) → ∀ (pre post : List (T × List R)),
      ∃ ys, Steps O ⟨pre ++ l ++ post, pre.length, 0⟩ ⟨pre ++ ys ++ post, pre.length + ys.length, 0⟩ ∧ total V ys = total V l
  | [], _, pre, post => ⟨[], by simpa using Steps.refl _, rfl⟩
  | x :: l, h, pre, post => by
    obtain ⟨h1, h2, h3⟩ := h x (List.mem_cons_self ..)
    obtain ⟨ys, s1, v1⟩ := ih x h1 h2 0 h3 pre (l ++ post)
    obtain ⟨zs, s2, v2⟩ := passes_list ih l (fun y hy => h y (List.mem_cons_of_mem _ hy)) (pre ++ ys) post
    refine ⟨ys ++ zs, ?_, ?_⟩
    · have e1 : pre ++ x :: l ++ post = pre ++ x :: (l ++ post) := by simp
      have e2 : pre ++ ys ++ (l ++ post) = pre ++ ys ++ l ++ post := by simp
      have e3 : pre ++ ys ++ zs ++ post = pre ++ (ys ++ zs) ++ post := by simp
      have e4 : (pre ++ ys).length = pre.length + ys.length := by simp
      have e5 : (pre ++ ys).length + zs.length = pre.length + (ys ++ zs).length := by simp; omega
      rw [e5, e4, e3] at s2
      rw [e1]
      rw [e2] at s1
      exact s1.trans s2
    · change ((ys ++ zs).map _).sum = ((x :: l).map _).sum
      rw [List.map_append, List.sum_append, List.map_cons, List.sum_cons]
      exact congrArg₂ (· + ·) v1 v2

theorem step_mid (pre : List (T × List R)) (t : T) (rs : List R) (post : List (T × List R)) {k : ℕ} (hk : k < rs.length) :
    step O ⟨pre ++ (t, rs) :: post, pre.length, k⟩ = (if O.inDelta rs[k] then
        match (O.delta t rs k).1 with
        | [] => .error .index
        | item :: items =>
          let iR := if (O.delta t rs k).2 = .same then k + 1 else k
          let buf := pre ++ (item :: items) ++ post
          if iR ≥ item.2.length then .ok ⟨buf, pre.length + 1, 0⟩ else .ok ⟨buf, pre.length, iR⟩
      else if k + 1 ≥ rs.length then .ok ⟨pre ++ (t, rs) :: post, pre.length + 1, 0⟩ else .ok ⟨pre ++ (t, rs) :: post, pre.length, k + 1⟩) := by
  unfold step
  simp only [getElem_mid, List.getElem?_eq_getElem hk, take_mid, drop_mid]

theorem lt_mid (pre : List (T × List R)) (x : T × List R) (post : List (T × List R)) : pre.length < (pre ++ x :: post).length := by simp

theorem passes (C : Contract O V P w) : ∀ (n m : ℕ) (t : T) (rs : List R), w t ≤ n → P t rs → ∀ k, k < rs.length → rs.length - k ≤ m → ∀ pre post, Passes O V pre (t, rs) post k := by
  intro n
  induction n using Nat.strong_induction_on with
  | _ n ihn =>
  have ih : ∀ x : T × List R, w x.1 < n → P x.1 x.2 → ∀ k < x.2.length, ∀ pre post, Passes O V pre x post k :=
    fun x hx hp k hk pre post => ihn (w x.1) hx _ x.1 x.2 le_rfl hp k hk le_rfl pre post
  intro m
  induction m with
  | zero => intro t rs _ _ k hk hm; omega
  | succ m ihm =>
    intro t rs hw hp k hk hm pre post
    have hs := step_mid (O := O) pre t rs post hk
    -- the next range of the same item
    have next : ∀ {s : St T R}, step O ⟨pre ++ (t, rs) :: post, pre.length, k⟩ = .ok s →
        (s = ⟨pre ++ (t, rs) :: post, pre.length + 1, 0⟩ ∧ ¬ k + 1 < rs.length ∨ s = ⟨pre ++ (t, rs) :: post, pre.length, k + 1⟩ ∧ k + 1 < rs.length) →
        Passes O V pre (t, rs) post k := by
      rintro s e (⟨rfl, _⟩ | ⟨rfl, h⟩)
      · refine ⟨[(t, rs)], .head (lt_mid ..) e ?_, by simp [total]⟩
        have e2 : pre ++ [(t, rs)] ++ post = pre ++ (t, rs) :: post := by simp
        rw [e2]
        exact .refl _
      · obtain ⟨ys, s1, v1⟩ := ihm t rs hw hp (k + 1) h (by omega) pre post
        exact ⟨ys, .head (lt_mid ..) e s1, v1⟩
    by_cases hd : O.inDelta rs[k] = true
    · rw [if_pos hd] at hs
      have sh := C.shape t rs k hp hk
      have vl := C.value t rs k hp hk
      have kp := C.keep t rs k hp hk
      cases hf : (O.delta t rs k).2 with
      | same =>
        rw [hf] at sh hs
        dsimp only at sh
        rw [sh] at hs
        simp only [if_true] at hs
        have e2 : pre ++ [(t, rs)] ++ post = pre ++ (t, rs) :: post := by simp
        rw [e2] at hs
        by_cases h : k + 1 < rs.length
        · rw [if_neg (by omega)] at hs
          exact next hs (.inr ⟨rfl, h⟩)
        · rw [if_pos (by omega)] at hs
          exact next hs (.inl ⟨rfl, h⟩)
      | done =>
        rw [hf] at sh hs
        dsimp only at sh
        obtain ⟨t', e, hw'⟩ := sh
        rw [e] at hs vl kp
        have hp' : P t' (rs.eraseIdx k) := kp _ (List.mem_singleton.mpr rfl)
        have hv : V t' (rs.eraseIdx k) = V t rs := by simpa using vl
        have hlen : (rs.eraseIdx k).length = rs.length - 1 := List.length_eraseIdx_of_lt hk
        simp only [reduceCtorEq, if_false] at hs
        have e2 : pre ++ [(t', rs.eraseIdx k)] ++ post = pre ++ (t', rs.eraseIdx k) :: post := by simp
        by_cases h : k < (rs.eraseIdx k).length
        · rw [if_neg (by omega), e2] at hs
          obtain ⟨ys, s1, v1⟩ := ihm t' (rs.eraseIdx k) (le_trans hw' hw) hp' k h (by omega) pre post
          exact ⟨ys, .head (lt_mid ..) hs s1, v1.trans hv⟩
        · rw [if_pos (by omega)] at hs
          exact ⟨[(t', rs.eraseIdx k)], .head (lt_mid ..) hs (.refl _), by simpa [total] using hv⟩
      | expanded =>
        rw [hf] at sh hs
        dsimp only at sh
        obtain ⟨hne, hall⟩ := sh
        cases hl : (O.delta t rs k).1 with
        | nil => exact absurd hl hne
        | cons item items =>
          rw [hl] at hs hall vl kp
          simp only [reduceCtorEq, if_false] at hs
          obtain ⟨hi, hwi⟩ := hall item (List.mem_cons_self ..)
          rw [hi, if_neg (by omega)] at hs
          have e2 : pre ++ item :: items ++ post = pre ++ item :: (items ++ post) := by simp
          rw [e2] at hs
          obtain ⟨ys, s1, v1⟩ := ih item (lt_of_lt_of_le hwi hw) (kp _ (List.mem_cons_self ..)) k (by rw [hi]; exact hk) pre (items ++ post)
          obtain ⟨zs, s2, v2⟩ := passes_list (O := O) (V := V) (P := P) (w := w) ih items (fun y hy => by
            obtain ⟨q1, q2⟩ := hall y (List.mem_cons_of_mem _ hy)
            exact ⟨lt_of_lt_of_le q2 hw, kp _ (List.mem_cons_of_mem _ hy), by rw [q1]; omega⟩) (pre ++ ys) post
          refine ⟨ys ++ zs, .head (lt_mid ..) hs ?_, ?_⟩
          · have e3 : pre ++ ys ++ (items ++ post) = pre ++ ys ++ items ++ post := by simp
            have e4 : (pre ++ ys).length = pre.length + ys.length := by simp
            have e5 : (pre ++ ys).length + zs.length = pre.length + (ys ++ zs).length := by simp; omega
            have e6 : pre ++ ys ++ zs ++ post = pre ++ (ys ++ zs) ++ post := by simp
            rw [e5, e4, e6] at s2
            rw [e3] at s1
            exact s1.trans s2
          · change ((ys ++ zs).map _).sum = V t rs
            rw [List.map_append, List.sum_append, ← vl, List.map_cons, List.sum_cons]
            exact congrArg₂ (· + ·) v1 v2
    · rw [if_neg hd] at hs
      by_cases h : k + 1 < rs.length
      · rw [if_neg (by omega)] at hs
        exact next hs (.inr ⟨rfl, h⟩)
      · rw [if_pos (by omega)] at hs
        exact next hs (.inl ⟨rfl, h⟩)

/-- **C47** the loop over all ranges and summands ends, without IndexError, and the sum of the results has the value of the original sum, whatever the order in which the
ranges are eliminated, if each single elimination keeps the value -/
theorem C47_loop (C : Contract O V P w) {term : T} {ranges : List R} (hp : P term ranges) (hr : ranges ≠ []) :
    ∃ n out, run O n ⟨[(term, ranges)], 0, 0⟩ = .ok (some out) ∧ (out.map fun x => V x.1 x.2).sum = V term ranges := by
  obtain ⟨ys, s, v⟩ := passes C (w term) ranges.length term ranges le_rfl hp 0 (List.length_pos_iff.mpr hr) (by omega) [] []
  obtain ⟨n, hn⟩ := run_of_steps s (by simp)
  exact ⟨n, _, hn, by simpa [total] using v⟩

theorem run_more {O : Ops T R} : ∀ {n m : ℕ} {s : St T R} {out : List (T × List R)}, run O n s = .ok (some out) → n ≤ m → run O m s = .ok (some out)
  | 0, 0, _, _, h, _ => h
  | 0, m + 1, s, out, h, _ => by
    unfold run at h ⊢
    split at h
    · injection h with h; exact nomatch h
    · rw [if_neg ‹_›]; exact h
  | n + 1, 0, _, _, _, h => absurd h (by omega)
  | n + 1, m + 1, s, out, h, hm => by
    unfold run at h ⊢
    split at h
    · rw [if_pos ‹_›]
      cases e : step O s with
      | error e' => rw [e] at h; exact nomatch h
      | ok s' =>
        rw [e] at h
        exact run_more h (Nat.le_of_succ_le_succ hm)
    · rw [if_neg ‹_›]; exact h

/-- **C47** the expression that is returned has the value of the original sum -/
theorem C47_loop_result [DecidableEq T] [DecidableEq R] (C : Contract O V P w) {term : T} {ranges : List R} (hp : P term ranges) (hr : ranges ≠ []) {n : ℕ}
    {out : List (T × List R)} (h : run O n ⟨[(term, ranges)], 0, 0⟩ = .ok (some out)) {create : T → List R → M} {bare : T → M} {r : M}
    (hc : ∀ t rs, rs ≠ [] → create t rs = V t rs) (hb : ∀ t, bare t = V t []) (hf : finish create bare (· + ·) term ranges out = some r) : r = V term ranges := by
  obtain ⟨m, out', h', v⟩ := C47_loop C hp hr
  have e : out = out' := by
    have h1 := run_more h (Nat.le_max_left n m)
    have h2 := run_more h' (Nat.le_max_right n m)
    rw [h1] at h2
    injection h2 with h2; injection h2
  subst e
  have key : ∀ y : T × List R, (if y.2.length > 0 then create y.1 y.2 else bare y.1) = V y.1 y.2 := by
    rintro ⟨t, rs⟩
    split
    · exact hc t rs (List.length_pos_iff.mp ‹_›)
    · rename_i hz
      have : rs = [] := by simpa using hz
      subst this
      exact hb t
  cases out with
  | nil => exact nomatch hf
  | cons x xs =>
    simp only [finish] at hf
    by_cases hx : x :: xs = [(term, ranges)]
    · rw [if_pos hx] at hf; exact nomatch hf
    · rw [if_neg hx] at hf
      injection hf with hf
      rw [← hf, ← v]
      simp only [key]
      rw [List.map_cons, List.sum_cons]
      have : ∀ (l : List (T × List R)) (a : M), l.foldl (fun acc y => acc + V y.1 y.2) a = a + (l.map fun y => V y.1 y.2).sum := by
        intro l
        induction l with
        | nil => intro a; simp
        | cons y l ih => intro a; rw [List.foldl_cons, ih, List.map_cons, List.sum_cons, add_assoc]
      exact this xs _

end

/-! ### an instance: one index, sums of numbers with and without a delta -/

section example_

/-- `_deltasummation` for `∑ (c + d*KroneckerDelta(i, 1) + ...)` -/
def exOps : Ops (List (Bool × ℤ)) (List ℕ) where
  inDelta := fun _ => true
  delta := fun t rs k => match t with
    | [(true, c)] => ([([(false, c)], rs.eraseIdx k)], .done)
    | [(false, _)] => ([(t, rs)], .same)
    | [] => ([(t, rs)], .same)
    | l => (l.map fun x => ([x], rs), .expanded)

/-- the value -/
def exV (t : List (Bool × ℤ)) (rs : List (List ℕ)) : ℤ :=
  match rs with
  | [] => (t.map Prod.snd).sum
  | r :: _ => (t.map fun x => if x.1 then x.2 * (r.count 1 : ℕ) else x.2 * (r.length : ℕ)).sum

/-- the contract is met for the range (1, 2, 3) -/
theorem ex_contract : Contract exOps exV (fun t rs => rs = [[1, 2, 3]] ∨ rs = [] ∧ t.length ≤ 1) List.length where
  shape := by
    rintro t rs k (rfl | ⟨rfl, _⟩) hk
    · obtain rfl : k = 0 := by simpa using hk
      match t with
      | [] => rfl
      | [(true, c)] => exact ⟨_, rfl, le_rfl⟩
      | [(false, c)] => rfl
      | a :: b :: l =>
        have e : exOps.delta (a :: b :: l) [[1, 2, 3]] 0 = ((a :: b :: l).map fun x => ([x], [[1, 2, 3]]), .expanded) := by
          obtain ⟨a1, a2⟩ := a
          cases a1 <;> rfl
        rw [e]
        refine ⟨by simp, fun x hx => ?_⟩
        obtain ⟨y, _, rfl⟩ := List.mem_map.mp hx
        exact ⟨rfl, by simp⟩
    · simp at hk
  value := by
    rintro t rs k (rfl | ⟨rfl, _⟩) hk
    · obtain rfl : k = 0 := by simpa using hk
      match t with
      | [] => rfl
      | [(true, c)] => simp [exOps, exV]
      | [(false, c)] => simp [exOps, exV]
      | a :: b :: l =>
        have e : exOps.delta (a :: b :: l) [[1, 2, 3]] 0 = ((a :: b :: l).map fun x => ([x], [[1, 2, 3]]), .expanded) := by
          obtain ⟨a1, a2⟩ := a
          cases a1 <;> rfl
        rw [e]
        simp [exV, Function.comp_def]
    · simp at hk
  keep := by
    rintro t rs k (rfl | ⟨rfl, _⟩) hk x hx
    · obtain rfl : k = 0 := by simpa using hk
      match t with
      | [] => obtain rfl := List.mem_singleton.mp hx; exact .inl rfl
      | [(true, c)] => obtain rfl := List.mem_singleton.mp hx; exact .inr ⟨rfl, le_rfl⟩
      | [(false, c)] => obtain rfl := List.mem_singleton.mp hx; exact .inl rfl
      | a :: b :: l =>
        have e : exOps.delta (a :: b :: l) [[1, 2, 3]] 0 = ((a :: b :: l).map fun x => ([x], [[1, 2, 3]]), .expanded) := by
          obtain ⟨a1, a2⟩ := a
          cases a1 <;> rfl
        rw [e] at hx
        obtain ⟨y, _, rfl⟩ := List.mem_map.mp hx
        exact .inl rfl
    · simp at hk

/-- `∑_{i ∈ (1, 2, 3)} (5 + 7 δ_{i,1} + 2 δ_{i,1})` is split into a sum and two numbers; the value is 24 -/
example : run exOps 9 ⟨[([(false, 5), (true, 7), (true, 2)], [[1, 2, 3]])], 0, 0⟩ matches .ok (some [([(false, 5)], [[1, 2, 3]]), ([(false, 7)], []), ([(false, 2)], [])]) := by
  decide +kernel
example : exV [(false, 5), (true, 7), (true, 2)] [[1, 2, 3]] = 24 := by decide +kernel

/-- a sum without ranges would be an IndexError -/
example : run exOps 9 ⟨[([(false, 5)], [])], 0, 0⟩ matches .error .index := by decide +kernel

end example_

end QNET.Driver
