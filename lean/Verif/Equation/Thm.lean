import Verif.Equation.Model
import Verif.Indexed.Sem
import Verif.Util.KernelRfl
import Mathlib.Data.Rat.Floor
import Mathlib.Tactic.Linarith

/-! # C41: equation histories -/

namespace QNET.Equation

open QNET.Perm (Res Err)
open QNET.Indexed (Except.bind_ok mapM_ok_cons mapM_ok_forall₂)

variable {V : Type}

/-- Specification: the left hand side that a line stands for, given all lines up to it: the last one that is not blank -/
def current (ls : List (Line V)) : Option V := ls.reverse.findSome? (fun l => l.lhs)

/-- the lists of the equation `e` hold the lines `ls` (the last one is the current line) -/
structure Repr (h : Heap V) (e : Obj V) (ls : List (Line V)) : Prop where
  lhs : get h e.prevLhs ++ [ofLhs e.lhs] = ls.map (fun l => ofLhs l.lhs)
  rhs : get h e.prevRhs ++ [.expr e.rhs] = ls.map (fun l => .expr l.rhs)
  tags : get h e.prevTags ++ [.tag e.tag] = ls.map (fun l => .tag l.tag)
  a : e.prevLhs < h.length
  b : e.prevRhs < h.length
  c : e.prevTags < h.length
  first : ∃ l v, ls.head? = some l ∧ l.lhs = some v

theorem get_append {h x : Heap V} {a : ℕ} (ha : a < h.length) : get (h ++ x) a = get h a := by
  unfold get
  rw [List.getElem?_append_left ha]

theorem Repr.mono {h x : Heap V} {e : Obj V} {ls : List (Line V)} (r : Repr h e ls) : Repr (h ++ x) e ls := by
  refine ⟨?_, ?_, ?_, ?_, ?_, ?_, r.first⟩
  · rw [get_append r.a]; exact r.lhs
  · rw [get_append r.b]; exact r.rhs
  · rw [get_append r.c]; exact r.tags
  all_goals rw [List.length_append]
  · exact Nat.lt_add_right _ r.a
  · exact Nat.lt_add_right _ r.b
  · exact Nat.lt_add_right _ r.c

/-- contents of an optional list argument -/
def contents (h : Heap V) : Option ℕ → List (Cell V)
  | some a => get h a
  | none => []

theorem orNew_spec (h : Heap V) (p : Option ℕ) (hp : ∀ a, p = some a → a < h.length) :
    ∃ x, (orNew h p).1 = h ++ x ∧ (orNew h p).2 < (orNew h p).1.length ∧ get (orNew h p).1 (orNew h p).2 = contents h p := by
  have hal : ∃ x, (alloc h []).1 = h ++ x ∧ (alloc h []).2 < (alloc h []).1.length ∧ get (alloc h []).1 (alloc h []).2 = [] :=
    ⟨[[]], rfl, by simp [alloc], by simp [alloc, get]⟩
  cases p with
  | none => exact hal
  | some a =>
    unfold orNew
    simp only
    split
    · rename_i e
      obtain ⟨x, h1, h2, h3⟩ := hal
      exact ⟨x, h1, h2, by rw [h3, contents, e]⟩
    · exact ⟨[], by simp, hp a rfl, rfl⟩

theorem contents_append {h x : Heap V} {p : Option ℕ} (hp : ∀ a, p = some a → a < h.length) : contents (h ++ x) p = contents h p := by
  cases p with
  | none => rfl
  | some a => exact get_append (hp a rfl)

variable (parse : List Char → Option ℤ)

theorem init_spec (h : Heap V) (lhs : Option V) (rhs : V) (tag : Tag) (pl pr pt : Option ℕ)
    (hl : ∀ a, pl = some a → a < h.length) (hr : ∀ a, pr = some a → a < h.length) (ht : ∀ a, pt = some a → a < h.length) :
    ∃ x e, init parse h lhs rhs tag pl pr pt = (h ++ x, e) ∧ e.lhs = lhs ∧ e.rhs = rhs ∧ e.tag = toTag parse tag ∧
      e.prevLhs < (h ++ x).length ∧ e.prevRhs < (h ++ x).length ∧ e.prevTags < (h ++ x).length ∧
      get (h ++ x) e.prevLhs = contents h pl ∧ get (h ++ x) e.prevRhs = contents h pr ∧ get (h ++ x) e.prevTags = contents h pt := by
  unfold init
  obtain ⟨x1, e1, l1, g1⟩ := orNew_spec h pl hl
  cases o1 : orNew h pl with | mk h1 a => ?_
  rw [o1] at e1 l1 g1
  simp only at e1 l1 g1 ⊢
  have hr1 : ∀ a, pr = some a → a < h1.length := fun a ha => by rw [e1, List.length_append]; exact Nat.lt_add_right _ (hr a ha)
  have ht1 : ∀ a, pt = some a → a < h1.length := fun a ha => by rw [e1, List.length_append]; exact Nat.lt_add_right _ (ht a ha)
  obtain ⟨x2, e2, l2, g2⟩ := orNew_spec h1 pr hr1
  cases o2 : orNew h1 pr with | mk h2 b => ?_
  rw [o2] at e2 l2 g2
  simp only at e2 l2 g2 ⊢
  have ht2 : ∀ a, pt = some a → a < h2.length := fun a ha => by rw [e2, List.length_append]; exact Nat.lt_add_right _ (ht1 a ha)
  obtain ⟨x3, e3, l3, g3⟩ := orNew_spec h2 pt ht2
  cases o3 : orNew h2 pt with | mk h3 c => ?_
  rw [o3] at e3 l3 g3
  simp only at e3 l3 g3 ⊢
  have eall : h3 = h ++ (x1 ++ x2 ++ x3) := by rw [e3, e2, e1]; simp
  refine ⟨x1 ++ x2 ++ x3, _, by rw [← eall], rfl, rfl, rfl, ?_⟩
  rw [← eall]
  have l1' : a < h2.length := by rw [e2, List.length_append]; exact Nat.lt_add_right _ l1
  refine ⟨?_, ?_, l3, ?_, ?_, ?_⟩
  · show a < _
    rw [e3, List.length_append]; exact Nat.lt_add_right _ l1'
  · show b < _
    rw [e3, List.length_append]; exact Nat.lt_add_right _ l2
  · show get h3 a = _
    rw [e3, get_append l1', e2, get_append l1, g1]
  · show get h3 b = _
    rw [e3, get_append l2, g2, e1, contents_append hr]
  · show get h3 c = _
    rw [g3, e2, contents_append ht1, e1, contents_append ht]

/-- an equation without history -/
theorem init_fresh (h : Heap V) (l : V) (r : V) (t : Tag) :
    ∃ x e, init parse h (some l) r t none none none = (h ++ x, e) ∧ Repr (h ++ x) e [⟨some l, r, toTag parse t⟩] := by
  obtain ⟨x, e, h1, h2, h3, h4, h5, h6, h7, h8, h9, h10⟩ := init_spec parse h (some l) r t none none none (by simp) (by simp) (by simp)
  refine ⟨x, e, h1, ?_, ?_, ?_, h5, h6, h7, ⟨_, l, rfl, rfl⟩⟩
  · rw [h8, h2]; rfl
  · rw [h9, h3]; rfl
  · rw [h10, h4]; rfl

/-- the same history with another tag -/
theorem init_same {h : Heap V} {e : Obj V} {ls : List (Line V)} {cur : Line V} (hr : Repr h e (ls ++ [cur])) (t : Tag) :
    ∃ x e', init parse h e.lhs e.rhs t (some e.prevLhs) (some e.prevRhs) (some e.prevTags) = (h ++ x, e') ∧
      Repr (h ++ x) e' (ls ++ [⟨cur.lhs, cur.rhs, toTag parse t⟩]) := by
  obtain ⟨x, e', h1, h2, h3, h4, h5, h6, h7, h8, h9, h10⟩ := init_spec parse h e.lhs e.rhs t (some e.prevLhs) (some e.prevRhs) (some e.prevTags)
    (by rintro a ⟨⟩; exact hr.a) (by rintro a ⟨⟩; exact hr.b) (by rintro a ⟨⟩; exact hr.c)
  refine ⟨x, e', h1, ?_, ?_, ?_, h5, h6, h7, ?_⟩
  · rw [h8, h2]
    have := hr.lhs
    rw [List.map_append] at this ⊢
    exact this
  · rw [h9, h3]
    have := hr.rhs
    rw [List.map_append] at this ⊢
    exact this
  · rw [h10, h4]
    have := hr.tags
    rw [List.map_append] at this ⊢
    obtain ⟨this, -⟩ := List.append_inj' this rfl
    rw [← this]; rfl
  · obtain ⟨l, v, g1, g2⟩ := hr.first
    cases ls with
    | nil =>
      simp at g1; subst g1
      exact ⟨_, v, rfl, g2⟩
    | cons y ls => exact ⟨l, v, g1, g2⟩

theorem update_reset (h : Heap V) (e : Obj V) (l r : V) (t : Tag) :
    ∃ x e', update parse h e (some l) r t false = (h ++ x, e') ∧ Repr (h ++ x) e' [⟨some l, r, toTag parse t⟩] := by
  unfold update
  simp only [Bool.false_eq_true, if_false]
  exact init_fresh parse h l r t

theorem update_cont {h : Heap V} {e : Obj V} {ls : List (Line V)} (hr : Repr h e ls) (l : Option V) (r : V) (t : Tag) :
    ∃ x e', update parse h e l r t true = (h ++ x, e') ∧ Repr (h ++ x) e' (ls ++ [⟨l, r, toTag parse t⟩]) := by
  unfold update
  simp only [if_true, alloc]
  have hg : ∀ (h : Heap V) (l : List (Cell V)), get (h ++ [l]) h.length = l := by intro h l; simp [get]
  have lb : e.prevRhs < (h ++ [get h e.prevLhs ++ [ofLhs e.lhs]]).length := by rw [List.length_append]; exact Nat.lt_add_right _ hr.b
  have lc1 : e.prevTags < (h ++ [get h e.prevLhs ++ [ofLhs e.lhs]]).length := by rw [List.length_append]; exact Nat.lt_add_right _ hr.c
  rw [get_append hr.b, get_append lc1, get_append hr.c]
  rw [hr.lhs, hr.rhs, hr.tags]
  generalize hh : h ++ [ls.map (fun l => ofLhs l.lhs)] ++ [ls.map (fun l => Cell.expr l.rhs)] ++ [ls.map (fun l => Cell.tag l.tag)] = H
  have hlen : H.length = h.length + 3 := by rw [← hh]; simp
  have la : h.length < H.length := by omega
  have lb' : (h ++ [ls.map (fun l => ofLhs l.lhs)]).length < H.length := by rw [hlen]; simp
  have lc' : (h ++ [ls.map (fun l => ofLhs l.lhs)] ++ [ls.map (fun l => Cell.expr l.rhs)]).length < H.length := by rw [hlen]; simp
  obtain ⟨x, e', h1, h2, h3, h4, h5, h6, h7, h8, h9, h10⟩ := init_spec parse H l r t (some h.length)
    (some (h ++ [ls.map (fun l => ofLhs l.lhs)]).length) (some (h ++ [ls.map (fun l => ofLhs l.lhs)] ++ [ls.map (fun l => Cell.expr l.rhs)]).length)
    (by rintro a ⟨⟩; exact la) (by rintro a ⟨⟩; exact lb') (by rintro a ⟨⟩; exact lc')
  refine ⟨[ls.map (fun l => ofLhs l.lhs)] ++ [ls.map (fun l => Cell.expr l.rhs)] ++ [ls.map (fun l => Cell.tag l.tag)] ++ x, e', ?_, ?_⟩
  · rw [h1, ← hh]; simp
  · have eH : h ++ ([ls.map (fun l => ofLhs l.lhs)] ++ [ls.map (fun l => Cell.expr l.rhs)] ++ [ls.map (fun l => Cell.tag l.tag)] ++ x) = H ++ x := by
      rw [← hh]; simp
    rw [eH]
    refine ⟨?_, ?_, ?_, h5, h6, h7, ?_⟩
    · rw [h8, h2, contents, ← hh, get_append (by simp), get_append (by simp), hg]; simp
    · rw [h9, h3, contents, ← hh, get_append (by simp), hg]; simp
    · rw [h10, h4, contents, ← hh, hg]; simp
    · obtain ⟨m, v, g1, g2⟩ := hr.first
      exact ⟨m, v, by cases ls with
        | nil => simp at g1
        | cons y ls => exact g1, g2⟩

/-! ### reading -/

theorem searchBack_spec : ∀ (ls : List (Line V)), (∃ v, (ls.findSome? (fun l => l.lhs)) = some v) →
    ∃ v, searchBack (ls.map (fun l => ofLhs l.lhs)) = .ok v ∧ ls.findSome? (fun l => l.lhs) = some v
  | [], h => by simp at h
  | l :: ls, h => by
    cases e : l.lhs with
    | some w => exact ⟨w, by simp [ofLhs, e, searchBack], by simp [e]⟩
    | none =>
      obtain ⟨v, hv⟩ := h
      rw [List.findSome?_cons, e] at hv
      obtain ⟨w, h1, h2⟩ := searchBack_spec ls ⟨v, hv⟩
      exact ⟨w, by simpa [ofLhs, e, searchBack] using h1, by simpa [e] using h2⟩

theorem current_some {ls : List (Line V)} (h : ∃ l v, ls.head? = some l ∧ l.lhs = some v) : ∃ v, current ls = some v := by
  obtain ⟨l, v, h1, h2⟩ := h
  unfold current
  have : l ∈ ls := List.mem_of_mem_head? (by rw [h1]; rfl)
  have hs : (ls.reverse.findSome? (fun l => l.lhs)).isSome := by
    rw [List.findSome?_isSome_iff]
    exact ⟨l, by simpa using this, by rw [h2]; rfl⟩
  exact Option.isSome_iff_exists.mp hs

theorem Repr.exists_last {h : Heap V} {e : Obj V} {ls : List (Line V)} (r : Repr h e ls) : ∃ ini, ls = ini ++ [⟨e.lhs, e.rhs, e.tag⟩] := by
  have hne : ls ≠ [] := by
    rintro rfl
    have := congrArg List.length r.lhs
    simp at this
  obtain ⟨ini, x, rfl⟩ : ∃ ini x, ls = ini ++ [x] := ⟨ls.dropLast, ls.getLast hne, (List.dropLast_append_getLast hne).symm⟩
  refine ⟨ini, ?_⟩
  have h1 := r.lhs
  have h2 := r.rhs
  have h3 := r.tags
  rw [List.map_append] at h1 h2 h3
  obtain ⟨-, h1⟩ := List.append_inj' h1 rfl
  obtain ⟨-, h2⟩ := List.append_inj' h2 rfl
  obtain ⟨-, h3⟩ := List.append_inj' h3 rfl
  obtain ⟨l, rr, t⟩ := x
  simp at h1 h2 h3
  have : e.lhs = l := by
    revert h1
    cases e.lhs <;> cases l <;> simp [ofLhs]
  rw [this, h2, h3]

theorem lhsOf_spec {h : Heap V} {e : Obj V} {ls : List (Line V)} (r : Repr h e ls) : ∃ v, lhsOf h e = .ok v ∧ current ls = some v := by
  obtain ⟨ini, rfl⟩ := r.exists_last
  obtain ⟨v, hv⟩ := current_some r.first
  refine ⟨v, ?_, hv⟩
  unfold current at hv
  unfold lhsOf
  have h1 := r.lhs
  rw [List.map_append] at h1
  obtain ⟨h1, -⟩ := List.append_inj' h1 rfl
  cases e1 : e.lhs with
  | some w => simp [e1] at hv; simp [hv]
  | none =>
    simp only
    rw [h1, ← List.map_reverse]
    simp only [List.reverse_append, List.reverse_cons, List.reverse_nil, List.nil_append, List.singleton_append, List.findSome?_cons, e1] at hv
    obtain ⟨w, g1, g2⟩ := searchBack_spec ini.reverse ⟨v, hv⟩
    rw [g1]
    rw [g2] at hv
    injection hv with hv
    rw [hv]

theorem rendered_spec {h : Heap V} {e : Obj V} {ls : List (Line V)} (r : Repr h e ls) : rendered h e = .ok ls := by
  obtain ⟨ini, rfl⟩ := r.exists_last
  have h1 := r.lhs
  have h2 := r.rhs
  have h3 := r.tags
  rw [List.map_append] at h1 h2 h3
  obtain ⟨h1, -⟩ := List.append_inj' h1 rfl
  obtain ⟨h2, -⟩ := List.append_inj' h2 rfl
  obtain ⟨h3, -⟩ := List.append_inj' h3 rfl
  unfold rendered
  rw [h1, h2, h3, List.length_map]
  have key : ∀ (n : ℕ), n ≤ ini.length → (List.range n).mapM (fun i : ℕ => lineAt (ini.map (fun l => ofLhs l.lhs)) (ini.map (fun l => Cell.expr l.rhs))
      (ini.map (fun l => Cell.tag l.tag)) i) = (.ok (ini.take n) : Res (List (Line V))) := by
    intro n
    induction n with
    | zero => intro _; rfl
    | succ n ih =>
      intro hn
      rw [List.range_succ, List.mapM_append, ih (by omega)]
      have hi : ini[n]? = some ini[n] := List.getElem?_eq_getElem (by omega)
      have hl : lineAt (ini.map (fun l => ofLhs l.lhs)) (ini.map (fun l => Cell.expr l.rhs)) (ini.map (fun l => Cell.tag l.tag)) n = .ok ini[n] := by
        unfold lineAt
        simp only [List.getElem?_map, hi, Option.map_some]
        rcases ini[n] with ⟨l, rr, t⟩
        cases l <;> rfl
      rw [List.mapM_cons, hl]
      show Except.ok (ini.take n ++ [ini[n]]) = _
      rw [List.take_add_one, hi]
      rfl
  rw [key _ (le_refl _), List.take_length]
  rfl

/-! ### sessions -/

/-- every equation of the session is represented by some lines -/
def Inv (s : State V) : Prop := ∀ (i : ℕ) (e : Obj V), s.eqs[i]? = some e → (∃ ls, Repr s.heap e ls) ∧ toTag parse e.tag = e.tag

variable [DecidableEq V]

/-- Specification: the lines of the equation that an operation creates, given the lines of the existing equations. The left hand side of a new line is left
blank if it is the same as before. -/
def specExec (view : ℕ → Option (List (Line V))) : Op V → Res (List (Line V))
  | .new l r t => .ok [⟨some l, r, toTag parse t⟩]
  | .apply i f cont t => match view i with
    | none => .error .other
    | some ls => match current ls, ls.getLast? with
      | some l, some last => f l >>= fun l' => f last.rhs >>= fun r' =>
          .ok (if cont then ls ++ [⟨if l' = l then none else some l', r', toTag parse t⟩] else [⟨some l', r', toTag parse t⟩])
      | _, _ => .error .indexError
  | .toLhs i f cont t => match view i with
    | none => .error .other
    | some ls => match current ls, ls.getLast? with
      | some l, some last => f l >>= fun l' =>
          .ok (if cont then ls ++ [⟨some l', last.rhs, toTag parse t⟩] else [⟨some l', last.rhs, toTag parse t⟩])
      | _, _ => .error .indexError
  | .toRhs i f cont t => match view i with
    | none => .error .other
    | some ls => match current ls, ls.getLast? with
      | some l, some last => f last.rhs >>= fun r' =>
          .ok (if cont then ls ++ [⟨none, r', toTag parse t⟩] else [⟨some l, r', toTag parse t⟩])
      | _, _ => .error .indexError
  | .setTag i t => match view i with
    | none => .error .other
    | some ls => match ls.getLast? with
      | some last => .ok (ls.dropLast ++ [⟨last.lhs, last.rhs, toTag parse t⟩])
      | none => .error .indexError
  | .copy i => match view i with
    | none => .error .other
    | some ls => .ok ls
  | .combine i f a => match view i with
    | none => .error .other
    | some ls => match a with
      | .eqn j => match view j with
        | none => .error .other
        | some ms => match current ls, ls.getLast?, current ms, ms.getLast? with
          | some l, some last, some m, some mlast => f l m >>= fun l' => f last.rhs mlast.rhs >>= fun r' => .ok [⟨some l', r', .none⟩]
          | _, _, _, _ => .error .indexError
      | .val v => match current ls, ls.getLast? with
        | some l, some last => f l v >>= fun l' => f last.rhs v >>= fun r' => .ok [⟨some l', r', .none⟩]
        | _, _ => .error .indexError
  | .scale i f => match view i with
    | none => .error .other
    | some ls => match current ls, ls.getLast? with
      | some l, some last => f l >>= fun l' => f last.rhs >>= fun r' => .ok [⟨some l', r', .none⟩]
      | _, _ => .error .indexError

/-- the printed lines of equation number `i` -/
def view (s : State V) (i : ℕ) : Option (List (Line V)) := s.eqs[i]?.bind (fun e => (rendered s.heap e).toOption)

omit [DecidableEq V] in
theorem toTag_idem (t : Tag) : toTag parse (toTag parse t) = toTag parse t := by
  cases t with
  | str s => cases e : parse s <;> simp [toTag, e]
  | _ => rfl

omit [DecidableEq V] in
theorem init_tag (h : Heap V) (l : Option V) (r : V) (t : Tag) (a b c : Option ℕ) : (init parse h l r t a b c).2.tag = toTag parse t := rfl

omit [DecidableEq V] in
theorem update_tag (h : Heap V) (e : Obj V) (l : Option V) (r : V) (t : Tag) (c : Bool) : (update parse h e l r t c).2.tag = toTag parse t := by
  unfold update
  cases c <;> rfl

omit [DecidableEq V] in
theorem view_of {s : State V} {i : ℕ} {e : Obj V} {ls : List (Line V)} (he : s.eqs[i]? = some e) (hr : Repr s.heap e ls) : view s i = some ls := by
  unfold view
  rw [he]
  simp [rendered_spec hr, Except.toOption]

/-- what an operation does, compared to the specification -/
def Agrees (s : State V) (x : Res (Heap V × Obj V)) (y : Res (List (Line V))) : Prop := match x with
  | .ok (h', e') => (∃ x, h' = s.heap ++ x) ∧ ∃ ls, Repr h' e' ls ∧ y = .ok ls
  | .error er => y = .error er

omit [DecidableEq V] in
theorem agrees_ok {s : State V} {p : Heap V × Obj V} {ls : List (Line V)}
    (h : ∃ x e', p = (s.heap ++ x, e') ∧ Repr (s.heap ++ x) e' ls) : Agrees s (.ok p) (.ok ls) := by
  obtain ⟨x, e', rfl, h⟩ := h
  exact ⟨⟨x, rfl⟩, ls, h, rfl⟩

omit [DecidableEq V] in
theorem agrees_bind {s : State V} {α : Type} (m : Res α) (f : α → Res (Heap V × Obj V)) (g : α → Res (List (Line V)))
    (h : ∀ a, m = .ok a → Agrees s (f a) (g a)) : Agrees s (m >>= f) (m >>= g) := by
  cases m with
  | error e => rfl
  | ok a => exact h a rfl

theorem exec_spec (s : State V) (hs : Inv parse s) (o : Op V) : Agrees s (exec parse s o) (specExec parse (view s) o) := by
  have hnone : ∀ i, s.eqs[i]? = none → view s i = none := fun i hi => by unfold view; rw [hi]; rfl
  have hlast : ∀ {e ls}, Repr s.heap e ls → ls.getLast? = some ⟨e.lhs, e.rhs, e.tag⟩ := by
    intro e ls hr
    obtain ⟨ini, rfl⟩ := hr.exists_last
    simp
  cases o with
  | new l r t => exact agrees_ok (init_fresh parse s.heap l r t)
  | apply i f cont t =>
    simp only [exec, specExec]
    cases he : s.eqs[i]? with
    | none => rw [hnone i he]; rfl
    | some e =>
      obtain ⟨⟨ls, hr⟩, -⟩ := hs i e he
      obtain ⟨v, h1, h2⟩ := lhsOf_spec hr
      rw [view_of he hr]
      simp only [h2, hlast hr, h1]
      refine agrees_bind (f v) _ _ (fun l' _ => agrees_bind _ _ _ (fun r' _ => ?_))
      cases cont with
      | true =>
        simp only [and_true, if_true]
        exact agrees_ok (update_cont parse hr _ _ _)
      | false =>
        simp only [Bool.false_eq_true, and_false, if_false]
        exact agrees_ok (update_reset parse s.heap e _ _ _)
  | toLhs i f cont t =>
    simp only [exec, specExec]
    cases he : s.eqs[i]? with
    | none => rw [hnone i he]; rfl
    | some e =>
      obtain ⟨⟨ls, hr⟩, -⟩ := hs i e he
      obtain ⟨v, h1, h2⟩ := lhsOf_spec hr
      rw [view_of he hr]
      simp only [h2, hlast hr, h1]
      refine agrees_bind (f v) _ _ (fun l' _ => ?_)
      cases cont with
      | true => exact agrees_ok (update_cont parse hr _ _ _)
      | false => exact agrees_ok (update_reset parse s.heap e _ _ _)
  | toRhs i f cont t =>
    simp only [exec, specExec]
    cases he : s.eqs[i]? with
    | none => rw [hnone i he]; rfl
    | some e =>
      obtain ⟨⟨ls, hr⟩, -⟩ := hs i e he
      obtain ⟨v, h1, h2⟩ := lhsOf_spec hr
      rw [view_of he hr]
      simp only [h2, hlast hr, h1]
      cases cont with
      | true =>
        simp only [if_true]
        exact agrees_bind _ _ _ (fun l' _ => agrees_ok (update_cont parse hr _ _ _))
      | false =>
        simp only [Bool.false_eq_true, if_false]
        exact agrees_bind (f e.rhs) _ _ (fun l' _ => agrees_ok (update_reset parse s.heap e _ _ _))
  | setTag i t =>
    simp only [exec, specExec]
    cases he : s.eqs[i]? with
    | none => rw [hnone i he]; rfl
    | some e =>
      obtain ⟨⟨ls, hr⟩, -⟩ := hs i e he
      rw [view_of he hr]
      simp only [hlast hr]
      obtain ⟨ini, rfl⟩ := hr.exists_last
      simp only [List.dropLast_concat]
      exact agrees_ok (init_same parse hr t)
  | copy i =>
    simp only [exec, specExec]
    cases he : s.eqs[i]? with
    | none => rw [hnone i he]; rfl
    | some e =>
      obtain ⟨⟨ls, hr⟩, ht⟩ := hs i e he
      rw [view_of he hr]
      obtain ⟨ini, rfl⟩ := hr.exists_last
      have := init_same parse hr e.tag
      rw [ht] at this
      exact agrees_ok this
  | combine i f a =>
    simp only [exec, specExec]
    cases he : s.eqs[i]? with
    | none => rw [hnone i he]; rfl
    | some e =>
      obtain ⟨⟨ls, hr⟩, -⟩ := hs i e he
      obtain ⟨v, h1, h2⟩ := lhsOf_spec hr
      rw [view_of he hr]
      cases a with
      | eqn j =>
        simp only
        cases he' : s.eqs[j]? with
        | none => rw [hnone j he']; rfl
        | some e' =>
          obtain ⟨⟨ls', hr'⟩, -⟩ := hs j e' he'
          obtain ⟨v', h1', h2'⟩ := lhsOf_spec hr'
          rw [view_of he' hr']
          simp only [h2, hlast hr, h1, h2', hlast hr', h1']
          exact agrees_bind (f v v') _ _ (fun l' _ => agrees_bind _ _ _ (fun r' _ => agrees_ok (init_fresh parse s.heap _ _ _)))
      | val w =>
        simp only [h2, hlast hr, h1]
        exact agrees_bind (f v w) _ _ (fun l' _ => agrees_bind _ _ _ (fun r' _ => agrees_ok (init_fresh parse s.heap _ _ _)))
  | scale i f =>
    simp only [exec, specExec]
    cases he : s.eqs[i]? with
    | none => rw [hnone i he]; rfl
    | some e =>
      obtain ⟨⟨ls, hr⟩, -⟩ := hs i e he
      obtain ⟨v, h1, h2⟩ := lhsOf_spec hr
      rw [view_of he hr]
      simp only [h2, hlast hr, h1]
      exact agrees_bind (f v) _ _ (fun l' _ => agrees_bind _ _ _ (fun r' _ => agrees_ok (init_fresh parse s.heap _ _ _)))

theorem exec_tag (s : State V) (hs : Inv parse s) (o : Op V) {h : Heap V} {e : Obj V} (he : exec parse s o = .ok (h, e)) : toTag parse e.tag = e.tag := by
  clear hs
  have k1 : ∀ {h0 l r t a b c}, (.ok (init parse h0 l r t a b c) : Res (Heap V × Obj V)) = .ok (h, e) → toTag parse e.tag = e.tag := by
    intro h0 l r t a b c h
    injection h with h
    have := init_tag parse h0 l r t a b c
    rw [h] at this
    rw [this, toTag_idem]
  have k2 : ∀ {h0 e0 l r t c}, (.ok (update parse h0 e0 l r t c) : Res (Heap V × Obj V)) = .ok (h, e) → toTag parse e.tag = e.tag := by
    intro h0 e0 l r t c h
    injection h with h
    have := update_tag parse h0 e0 l r t c
    rw [h] at this
    rw [this, toTag_idem]
  cases o with
  | new l r t => exact k1 he
  | apply i f cont t =>
    simp only [exec] at he
    split at he
    · cases he
    · obtain ⟨_, -, he⟩ := Except.bind_ok he
      obtain ⟨_, -, he⟩ := Except.bind_ok he
      obtain ⟨_, -, he⟩ := Except.bind_ok he
      exact k2 he
  | toLhs i f cont t =>
    simp only [exec] at he
    split at he
    · cases he
    · obtain ⟨_, -, he⟩ := Except.bind_ok he
      obtain ⟨_, -, he⟩ := Except.bind_ok he
      exact k2 he
  | toRhs i f cont t =>
    simp only [exec] at he
    split at he
    · cases he
    · split at he
      · obtain ⟨_, -, he⟩ := Except.bind_ok he
        exact k2 he
      · obtain ⟨_, -, he⟩ := Except.bind_ok he
        obtain ⟨_, -, he⟩ := Except.bind_ok he
        exact k2 he
  | setTag i t =>
    simp only [exec] at he
    split at he
    · cases he
    · exact k1 he
  | copy i =>
    simp only [exec] at he
    split at he
    · cases he
    · exact k1 he
  | combine i f a =>
    simp only [exec] at he
    split at he
    · cases he
    · split at he
      · split at he
        · cases he
        · obtain ⟨_, -, he⟩ := Except.bind_ok he
          obtain ⟨_, -, he⟩ := Except.bind_ok he
          obtain ⟨_, -, he⟩ := Except.bind_ok he
          obtain ⟨_, -, he⟩ := Except.bind_ok he
          exact k1 he
      · obtain ⟨_, -, he⟩ := Except.bind_ok he
        obtain ⟨_, -, he⟩ := Except.bind_ok he
        obtain ⟨_, -, he⟩ := Except.bind_ok he
        exact k1 he
  | scale i f =>
    simp only [exec] at he
    split at he
    · cases he
    · obtain ⟨_, -, he⟩ := Except.bind_ok he
      obtain ⟨_, -, he⟩ := Except.bind_ok he
      obtain ⟨_, -, he⟩ := Except.bind_ok he
      exact k1 he

theorem step_inv (s : State V) (hs : Inv parse s) (o : Op V) : Inv parse (step parse s o) := by
  unfold step
  have h1 := exec_spec parse s hs o
  cases e : exec parse s o with
  | error er => exact hs
  | ok p =>
    obtain ⟨h', e'⟩ := p
    rw [e] at h1
    obtain ⟨⟨x, rfl⟩, ls, hr, -⟩ := h1
    intro i y hy
    simp only at hy ⊢
    rcases lt_or_ge i s.eqs.length with hlt | hge
    · rw [List.getElem?_append_left hlt] at hy
      obtain ⟨⟨ls', hr'⟩, ht⟩ := hs i y hy
      exact ⟨⟨ls', hr'.mono⟩, ht⟩
    · rw [List.getElem?_append_right hge] at hy
      have : y = e' := by
        cases hk : i - s.eqs.length with
        | zero => rw [hk] at hy; simpa using hy.symm
        | succ k => rw [hk] at hy; simp at hy
      subst this
      exact ⟨⟨ls, hr⟩, exec_tag parse s hs o e⟩

theorem run_inv (ops : List (Op V)) : Inv parse (run parse ops) := by
  have : ∀ (ops : List (Op V)) (s : State V), Inv parse s → Inv parse (ops.foldl (step parse) s) := by
    intro ops
    induction ops with
    | nil => intro s hs; exact hs
    | cons o ops ih => intro s hs; exact ih _ (step_inv parse s hs o)
  exact this ops _ (by intro i e h; simp at h)

/-! ### C41 -/

/-- C41: no operation ever changes an equation that exists: after any session, whatever is done next, the printed lines, the left hand side, the right hand
side and the tag of every equation stay the same - even though equations share their history lists. -/
theorem C41_immutable (ops more : List (Op V)) (i : ℕ) (e : Obj V) (he : (run parse ops).eqs[i]? = some e) :
    (run parse (ops ++ more)).eqs[i]? = some e ∧ rendered (run parse (ops ++ more)).heap e = rendered (run parse ops).heap e ∧
    lhsOf (run parse (ops ++ more)).heap e = lhsOf (run parse ops).heap e := by
  unfold run
  rw [List.foldl_append]
  have hinv := run_inv parse ops
  unfold run at hinv he
  generalize ops.foldl (step parse) ⟨[], []⟩ = s at *
  have key : ∀ (more : List (Op V)) (s : State V), Inv parse s → s.eqs[i]? = some e → ∀ ls, Repr s.heap e ls →
      (more.foldl (step parse) s).eqs[i]? = some e ∧ Repr (more.foldl (step parse) s).heap e ls := by
    intro more
    induction more with
    | nil => intro s _ h1 ls h2; exact ⟨h1, h2⟩
    | cons o more ih =>
      intro s hs h1 ls h2
      refine ih _ (step_inv parse s hs o) ?_ ls ?_
      · unfold step
        split
        · rw [List.getElem?_append_left (List.getElem?_eq_some_iff.mp h1).1]; exact h1
        · exact h1
      · unfold step
        have h3 := exec_spec parse s hs o
        cases e : exec parse s o with
        | error er => exact h2
        | ok p =>
          obtain ⟨h', e'⟩ := p
          rw [e] at h3
          obtain ⟨⟨x, rfl⟩, -⟩ := h3
          exact h2.mono
  obtain ⟨⟨ls, hr⟩, -⟩ := hinv i e he
  obtain ⟨h1, h2⟩ := key more s hinv he ls hr
  refine ⟨h1, by rw [rendered_spec h2, rendered_spec hr], ?_⟩
  obtain ⟨v, g1, g2⟩ := lhsOf_spec h2
  obtain ⟨w, g3, g4⟩ := lhsOf_spec hr
  rw [g1, g3]
  rw [g2] at g4
  injection g4 with g4
  rw [g4]

/-- C41: an equation can always be printed and read: it has at least one line; its left hand side is the last one that is not blank, its right hand side and
tag are those of the last line. -/
theorem C41_read (ops : List (Op V)) (i : ℕ) (e : Obj V) (he : (run parse ops).eqs[i]? = some e) :
    ∃ ini v, rendered (run parse ops).heap e = .ok (ini ++ [⟨e.lhs, e.rhs, e.tag⟩]) ∧ lhsOf (run parse ops).heap e = .ok v ∧
      current (ini ++ [⟨e.lhs, e.rhs, e.tag⟩]) = some v := by
  obtain ⟨⟨ls, hr⟩, -⟩ := run_inv parse ops i e he
  obtain ⟨ini, rfl⟩ := hr.exists_last
  obtain ⟨v, h1, h2⟩ := lhsOf_spec hr
  exact ⟨ini, v, rendered_spec hr, h1, h2⟩

/-- C41: each operation of a session creates the equation with the lines that the specification asks for (with `cont`: the previous lines and one more; without:
a single line), or raises the exception of the given function and creates nothing. -/
theorem C41_history (ops : List (Op V)) (o : Op V) :
    match specExec parse (view (run parse ops)) o with
    | .ok ls => view (run parse (ops ++ [o])) (run parse ops).eqs.length = some ls ∧ (run parse (ops ++ [o])).eqs.length = (run parse ops).eqs.length + 1
    | .error _ => run parse (ops ++ [o]) = run parse ops := by
  have hinv := run_inv parse ops
  have h1 := exec_spec parse _ hinv o
  have hrun : run parse (ops ++ [o]) = step parse (run parse ops) o := by unfold run; rw [List.foldl_append]; rfl
  rw [hrun]
  unfold step
  cases e : exec parse (run parse ops) o with
  | error er =>
    rw [e] at h1
    rw [show specExec parse (view (run parse ops)) o = _ from h1]
  | ok p =>
    obtain ⟨h', e'⟩ := p
    rw [e] at h1
    obtain ⟨-, ls, hr, h2⟩ := h1
    rw [h2]
    simp only
    refine ⟨view_of (e := e') (by simp) hr, by simp⟩

/-- the rest of the chain: every line is a true equation, where a blank left hand side stands for the last one above it -/
def TrueFrom {W : Type} (ev : V → W) : Option V → List (Line V) → Prop
  | _, [] => True
  | prev, l :: ls => match l.lhs.or prev with
    | some v => ev v = ev l.rhs ∧ TrueFrom ev (some v) ls
    | none => False

/-- Specification: every line of the printed equation is true -/
def TrueChain {W : Type} (ev : V → W) (ls : List (Line V)) : Prop := TrueFrom ev none ls

/-- an operation that is correct for a given meaning `ev` of expressions: functions applied to both sides must depend on the value only, a function
applied to one side must not change the value -/
def Correct {W : Type} (ev : V → W) : Op V → Prop
  | .new l r _ => ev l = ev r
  | .apply _ f _ _ => ∀ x y x' y', ev x = ev y → f x = .ok x' → f y = .ok y' → ev x' = ev y'
  | .toLhs _ f _ _ => ∀ x x', f x = .ok x' → ev x' = ev x
  | .toRhs _ f _ _ => ∀ x x', f x = .ok x' → ev x' = ev x
  | .setTag _ _ => True
  | .copy _ => True
  | .combine _ f _ => ∀ x y u v x' y', ev x = ev y → ev u = ev v → f x u = .ok x' → f y v = .ok y' → ev x' = ev y'
  | .scale _ f => ∀ x y x' y', ev x = ev y → f x = .ok x' → f y = .ok y' → ev x' = ev y'

omit [DecidableEq V] in
theorem trueFrom_append {W : Type} (ev : V → W) (l : Line V) : ∀ (ls : List (Line V)) (p : Option V), TrueFrom ev p (ls ++ [l]) ↔
    TrueFrom ev p ls ∧ ∃ v, l.lhs.or ((ls.reverse.findSome? (fun l => l.lhs)).or p) = some v ∧ ev v = ev l.rhs
  | [], p => by
    simp only [List.nil_append, TrueFrom, List.reverse_nil, List.findSome?_nil, Option.none_or, true_and, and_true]
    cases e : l.lhs.or p <;> simp
  | m :: ls, p => by
    simp only [List.cons_append, TrueFrom, List.reverse_cons, List.findSome?_append]
    cases e : m.lhs.or p with
    | none => simp
    | some v =>
      simp only [trueFrom_append ev l ls (some v), and_assoc]
      have : ((ls.reverse.findSome? (fun l => l.lhs)).or ([m].findSome? (fun l => l.lhs))).or p = (ls.reverse.findSome? (fun l => l.lhs)).or (some v) := by
        rw [Option.or_assoc]
        congr 1
        simp only [List.findSome?_cons, List.findSome?_nil]
        cases h : m.lhs with
        | none => rw [h] at e; exact e
        | some w => rw [h] at e; exact e
      rw [this]

omit [DecidableEq V] in
theorem trueChain_append {W : Type} (ev : V → W) (l : Line V) (ls : List (Line V)) : TrueChain ev (ls ++ [l]) ↔
    TrueChain ev ls ∧ ∃ v, l.lhs.or (current ls) = some v ∧ ev v = ev l.rhs := by
  unfold TrueChain current
  rw [trueFrom_append]
  simp

omit [DecidableEq V] in
theorem trueChain_last {W : Type} {ev : V → W} {ls : List (Line V)} {l : V} {last : Line V} (h : TrueChain ev ls) (hc : current ls = some l)
    (hl : ls.getLast? = some last) : ev l = ev last.rhs := by
  obtain ⟨ini, rfl⟩ : ∃ ini, ls = ini ++ [last] := by
    refine ⟨ls.dropLast, (List.dropLast_append_getLast? _ (by rw [hl]; rfl)).symm⟩
  obtain ⟨-, v, h1, h2⟩ := (trueChain_append ev last ini).mp h
  unfold current at hc h1
  rw [List.reverse_append] at hc
  simp only [List.reverse_cons, List.reverse_nil, List.nil_append, List.singleton_append, List.findSome?_cons] at hc
  have : v = l := by
    cases e : last.lhs with
    | some w => rw [e] at hc h1; simp at hc h1; rw [← hc, ← h1]
    | none => rw [e] at hc h1; simp only [Option.none_or] at h1; rw [h1] at hc; simpa using hc
  rw [← this, h2]

/-- C41: the history is a valid chain: if every operation of a session is correct - new equations are true, functions applied to both sides respect the values,
functions applied to one side do not change its value - then every printed line of every equation is true. -/
theorem C41_chain {W : Type} (ev : V → W) (ops : List (Op V)) (hops : ∀ o ∈ ops, Correct ev o) (i : ℕ) (ls : List (Line V))
    (h : view (run parse ops) i = some ls) : TrueChain ev ls := by
  induction ops using List.reverseRecOn generalizing i ls with
  | nil => simp [run, view] at h
  | append_singleton ops o ih =>
    have ih' := fun i ls h => ih (fun o ho => hops o (by simp [ho])) i ls h
    have ho := hops o (by simp)
    have hH := C41_history parse ops o
    have hold : ∀ i ls, i < (run parse ops).eqs.length → view (run parse (ops ++ [o])) i = some ls → TrueChain ev ls := by
      intro i ls hi h
      obtain ⟨e, he⟩ : ∃ e, (run parse ops).eqs[i]? = some e := ⟨_, List.getElem?_eq_getElem hi⟩
      obtain ⟨h1, h2, -⟩ := C41_immutable parse ops [o] i e he
      apply ih' i ls
      unfold view at h ⊢
      rw [h1] at h
      rw [he]
      simpa [h2] using h
    cases es : specExec parse (view (run parse ops)) o with
    | error er =>
      rw [es] at hH
      simp only at hH
      rw [hH] at h
      exact ih' i ls h
    | ok ms =>
      rw [es] at hH
      simp only at hH
      obtain ⟨hview, hlen⟩ := hH
      rcases lt_or_ge i (run parse ops).eqs.length with hlt | hge
      · exact hold i ls hlt h
      · have hi : i = (run parse ops).eqs.length := by
          have : i < (run parse (ops ++ [o])).eqs.length := by
            unfold view at h
            cases e : (run parse (ops ++ [o])).eqs[i]? with
            | none => rw [e] at h; simp at h
            | some e' => exact (List.getElem?_eq_some_iff.mp e).1
          omega
        rw [hi, hview] at h
        injection h with h
        subst h
        have one : ∀ l r t, ev l = ev r → TrueChain ev [(⟨some l, r, t⟩ : Line V)] := by
          intro l r t h
          exact ⟨h, trivial⟩
        cases o with
        | new l r t => cases es; exact one _ _ _ ho
        | apply j f cont t =>
          simp only [specExec] at es
          split at es
          · cases es
          · rename_i ls' hls
            split at es
            · rename_i l last hc hl
              obtain ⟨l', h1, es⟩ := Except.bind_ok es
              obtain ⟨r', h2, es⟩ := Except.bind_ok es
              have ht := ih' j ls' hls
              have hv := ho _ _ _ _ (trueChain_last ht hc hl) h1 h2
              cases es
              split
              · rw [trueChain_append]
                refine ⟨ht, l', ?_, hv⟩
                split
                · rename_i e; rw [hc, e]; rfl
                · rfl
              · exact one _ _ _ hv
            · cases es
        | toLhs j f cont t =>
          simp only [specExec] at es
          split at es
          · cases es
          · rename_i ls' hls
            split at es
            · rename_i l last hc hl
              obtain ⟨l', h1, es⟩ := Except.bind_ok es
              have ht := ih' j ls' hls
              have hv := (ho _ _ h1).trans (trueChain_last ht hc hl)
              cases es
              split
              · rw [trueChain_append]
                exact ⟨ht, l', rfl, hv⟩
              · exact one _ _ _ hv
            · cases es
        | toRhs j f cont t =>
          simp only [specExec] at es
          split at es
          · cases es
          · rename_i ls' hls
            split at es
            · rename_i l last hc hl
              obtain ⟨r', h1, es⟩ := Except.bind_ok es
              have ht := ih' j ls' hls
              have hv := (trueChain_last ht hc hl).trans (ho _ _ h1).symm
              cases es
              split
              · rw [trueChain_append]
                exact ⟨ht, l, by rw [hc]; rfl, hv⟩
              · exact one _ _ _ hv
            · cases es
        | setTag j t =>
          simp only [specExec] at es
          split at es
          · cases es
          · rename_i ls' hls
            split at es
            · rename_i last hl
              have ht := ih' j ls' hls
              cases es
              rw [← List.dropLast_append_getLast? (l := ls') last (by rw [hl]; rfl)] at ht
              rw [trueChain_append] at ht ⊢
              exact ht
            · cases es
        | copy j =>
          simp only [specExec] at es
          split at es
          · cases es
          · rename_i ls' hls
            cases es
            exact ih' j _ hls
        | combine j f a =>
          simp only [specExec] at es
          split at es
          · cases es
          · rename_i ls' hls
            split at es
            · split at es
              · cases es
              · rename_i ms' hms
                split at es
                · rename_i l last m mlast hc hl hcm hlm
                  obtain ⟨l', h1, es⟩ := Except.bind_ok es
                  obtain ⟨r', h2, es⟩ := Except.bind_ok es
                  cases es
                  exact one _ _ _ (ho _ _ _ _ _ _ (trueChain_last (ih' _ _ hls) hc hl) (trueChain_last (ih' _ _ hms) hcm hlm) h1 h2)
                · cases es
            · split at es
              · rename_i l last hc hl
                obtain ⟨l', h1, es⟩ := Except.bind_ok es
                obtain ⟨r', h2, es⟩ := Except.bind_ok es
                cases es
                exact one _ _ _ (ho _ _ _ _ _ _ (trueChain_last (ih' _ _ hls) hc hl) rfl h1 h2)
              · cases es
        | scale j f =>
          simp only [specExec] at es
          split at es
          · cases es
          · rename_i ls' hls
            split at es
            · rename_i l last hc hl
              obtain ⟨l', h1, es⟩ := Except.bind_ok es
              obtain ⟨r', h2, es⟩ := Except.bind_ok es
              cases es
              exact one _ _ _ (ho _ _ _ _ (trueChain_last (ih' _ _ hls) hc hl) h1 h2)
            · cases es

/-! ### A session -/

/-- `eq0 = Eq(3, 1+2, tag='7')` (numbers stand for expressions), three manipulations with `cont=True`, a copy with another tag, and a sum -/
def session : List (Op ℕ) :=
  [.new 3 3 (.str ['7']), .toRhs 0 (fun x => .ok x) true .none, .apply 1 (fun x => .ok (2 * x)) true (.str ['*']), .apply 2 (fun x => .ok (x % 10)) true .none,
   .setTag 3 (.int 5), .combine 4 (fun x y => .ok (x + y)) (.eqn 0), .apply 5 (fun _ => .error .valueError) true .none]

def digit : List Char → Option ℤ
  | ['7'] => some 7
  | _ => none

example : view (run digit session) 4 = some [⟨some 3, 3, .int 7⟩, ⟨none, 3, .none⟩, ⟨some 6, 6, .str ['*']⟩, ⟨none, 6, .int 5⟩] ∧
    view (run digit session) 3 = some [⟨some 3, 3, .int 7⟩, ⟨none, 3, .none⟩, ⟨some 6, 6, .str ['*']⟩, ⟨none, 6, .none⟩] ∧
    view (run digit session) 5 = some [⟨some 9, 9, .none⟩] ∧ view (run digit session) 6 = none := by
  refine ⟨?_, ?_, ?_, ?_⟩ <;> kernel_rfl

example : ∀ o ∈ session, Correct (fun x : ℕ => x % 2) o := by
  intro o ho
  simp only [session, List.mem_cons, List.not_mem_nil, or_false] at ho
  rcases ho with rfl | rfl | rfl | rfl | rfl | rfl | rfl
  · rfl
  · intro x x' h; cases h; rfl
  · intro x y x' y' h h1 h2; cases h1; cases h2; simp
  · intro x y x' y' h h1 h2; cases h1; cases h2; simp only at h ⊢; omega
  · trivial
  · intro x y u v x' y' h h' h1 h2; cases h1; cases h2; simp only at h h' ⊢; omega
  · intro x y x' y' h h1; cases h1

/-- C41: what happens to tags: `None` and integers are kept, strings are kept unless `int()` accepts them, numbers with a fractional part are rounded
towards zero. -/
theorem C41_tag : toTag parse .none = .none ∧ (∀ z, toTag parse (.int z) = .int z) ∧
    (∀ s, parse s = none → toTag parse (.str s) = .str s) ∧ (∀ s z, parse s = some z → toTag parse (.str s) = .int z) ∧
    ∀ q : ℚ, ∃ z : ℤ, toTag parse (.frac q) = .int z ∧ (0 ≤ q → (z : ℚ) ≤ q ∧ q < z + 1) ∧ (q ≤ 0 → q ≤ z ∧ (z : ℚ) - 1 < q) := by
  refine ⟨rfl, fun _ => rfl, fun s h => by simp [toTag, h], fun s z h => by simp [toTag, h], fun q => ⟨_, rfl, ?_, ?_⟩⟩
  · intro h
    rw [if_pos h]
    exact ⟨Int.floor_le q, Int.lt_floor_add_one q⟩
  · intro h
    by_cases h0 : 0 ≤ q
    · have : q = 0 := le_antisymm h h0
      subst this
      rw [if_pos le_rfl]
      have e : (0 : ℚ).floor = 0 := by rfl
      rw [e]
      norm_num
    · rw [if_neg h0]
      exact ⟨Rat.le_ceil, by have := @Rat.ceil_lt q; linarith⟩

end QNET.Equation
