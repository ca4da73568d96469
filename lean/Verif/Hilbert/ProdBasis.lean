import Verif.Hilbert.Basis
import Verif.Util.KernelRfl

/-!
# C82: the basis of a Hilbert space (`basis_labels`, `basis_states`, `basis_state`, `dimension`)

`hilbert_space_algebra.py` lines 96-138, 378-434, 532-565, 660-768.
-/

namespace QNET.Hilbert

open QNET.Order QNET.Perm

/-- `",".join(labels)` -/
def joinComma : List Str → Str
  | [] => []
  | [s] => s
  | s :: t :: r => s ++ ',' :: joinComma (t :: r)

/-- `s.split(",")` -/
def splitComma : Str → List Str
  | [] => [[]]
  | c :: r =>
    if c = ',' then [] :: splitComma r
    else match splitComma r with
      | [] => [[c]]
      | p :: ps => (c :: p) :: ps

/-- `itertools.product(*ls_bases)`: the last factor runs fastest. -/
def cartesian : List (List Str) → List (List Str)
  | [] => [[]]
  | b :: bs => b.flatMap fun x => (cartesian bs).map fun r => x :: r

/-- `LocalSpace.basis_labels`, lines 412-421. -/
def Loc.labels (l : Loc) : Res (List Str) :=
  match l.basis with
  | none => .error .basisNotSet
  | some b => .ok b

/-- `TensorKet(*[BasisKet(label, hs=ls) for (ls, label) in zip(local_factors, labels)])`: lines 708-710, 737-739, 749-751; the constructor
of `TensorKet` (state_algebra.py lines 443-445, 741-746) refuses kets that share a local space. The state is given by its factors. -/
def tensorKet (ls : List Loc) (labels : List Str) : Res (List BKet) := do
  let ks ← (ls.zip labels).mapM fun p : Loc × Str => basisKet p.1 (.label p.2)
  if (ks.map BKet.space).Nodup then .ok ks else .error .algebraError

/-- `except ValueError as exc_info: raise e(...)` -/
def rethrow {α : Type} (e : Err) : Res α → Res α
  | .error .valueError => .error e
  | r => r

/-- `l[i]` for a Python list: negative indices count from the end. -/
def pyIndex {α : Type} (l : List α) (i : ℤ) : Res α :=
  if 0 ≤ i then (match l[i.toNat]? with
    | some x => .ok x
    | none => .error .indexError)
  else if 0 ≤ i + l.length then (match l[(i + l.length).toNat]? with
    | some x => .ok x
    | none => .error .indexError)
  else .error .indexError

/-- `basis_labels`, lines 130-138 (`FullSpace`), 412-421, 562-565, 670-679 with 712-724. -/
def basisLabels : Space → Res (List Str)
  | .trivial => .ok [['0']]
  | .full => .error .basisNotSet
  | .loc l => l.labels
  | .prod ls => do
    let bs ← ls.mapM Loc.labels
    .ok ((cartesian bs).map joinComma)

/-- `list(basis_states)`, lines 111-119, 383-393, 541-545, 696-710. Every state is given by the list of its local factors (the empty list
for `TrivialKet`). Simplification: the code yields the states one at a time; an exception is raised when the state is reached. -/
def basisStates : Space → Res (List (List BKet))
  | .trivial => .ok [[]]
  | .full => .error .basisNotSet
  | .loc l => do
    let b ← l.labels
    b.mapM fun s => (basisKet l (.label s)).map fun k => [k]
  | .prod ls => do
    let bs ← ls.mapM Loc.labels
    (cartesian bs).mapM (tensorKet ls)

/-- `basis_state(index_or_label)`, lines 121-128, 395-410, 547-560, 726-755. `spin = true` is a `SpinSpace`, whose levels can only be
referred to by label (`_basis_label_types`, spin_algebra.py line 70: `TypeError` for an `int`). For `TrivialSpace` and a wrong label the
text of the exception is built with `"%d" % label`, which itself raises `TypeError`. -/
def basisState (spin : Bool) : Space → LabelIdx → Res (List BKet)
  | .trivial, .index i => if i = 0 then .ok [] else .error .indexError
  | .trivial, .label s => if s = ['0'] then .ok [] else .error .typeError
  | .full, _ => .error .basisNotSet
  | .loc l, .index i => if spin then .error .typeError else rethrow .indexError ((basisKet l (.index i)).map fun k => [k])
  | .loc l, .label s => rethrow .keyError ((basisKet l (.label s)).map fun k => [k])
  | .prod ls, .index i => do
    let bs ← ls.mapM Loc.labels
    let t ← pyIndex (cartesian bs) i
    rethrow .indexError (tensorKet ls t)
  | .prod ls, .label s =>
    if (splitComma s).length ≠ ls.length then .error .keyError
    else rethrow .keyError (tensorKet ls (splitComma s))

/-! ### specification -/

/-- The number of the state with the levels `js` in the order in which the last degree of freedom runs fastest; `ds` are the dimensions. -/
def position : List ℕ → List ℕ → ℕ
  | _ :: ds, j :: js => j * ds.prod + position ds js
  | _, _ => 0

/-- A local space with a usable basis: the labels are distinct and can be labels of kets. -/
def Loc.Usable (l : Loc) (b : List Str) : Prop := l.basis = some b ∧ b.Nodup ∧ ∀ s ∈ b, ketLabelOk s = true

/-! ### lists -/

theorem split_ne_nil (s : Str) : splitComma s ≠ [] := by
  cases s with
  | nil => simp [splitComma]
  | cons c r =>
    rw [splitComma]
    split
    · simp
    · split <;> simp

theorem join_cons {x : Str} {r : List Str} (h : r ≠ []) : joinComma (x :: r) = x ++ ',' :: joinComma r := by
  cases r with
  | nil => exact absurd rfl h
  | cons t r => rfl

theorem join_split (s : Str) : joinComma (splitComma s) = s := by
  induction s with
  | nil => rfl
  | cons c r ih =>
    rw [splitComma]
    split
    · rename_i h
      rw [join_cons (split_ne_nil r), ih, h]
      rfl
    · have hne := split_ne_nil r
      cases h : splitComma r with
      | nil => exact absurd h hne
      | cons p ps =>
        rw [h] at ih
        simp only
        cases ps with
        | nil => simp only [joinComma] at ih ⊢; rw [ih]
        | cons q qs => simp only [joinComma, List.cons_append] at ih ⊢; rw [ih]

theorem split_append {x : Str} (hx : ',' ∉ x) (r : Str) : splitComma (x ++ ',' :: r) = x :: splitComma r := by
  induction x with
  | nil => simp [splitComma]
  | cons c x ih =>
    have hc : c ≠ ',' := fun h => hx (by simp [h])
    rw [List.cons_append, splitComma, if_neg hc, ih (fun h => hx (by simp [h]))]

theorem split_self {x : Str} (hx : ',' ∉ x) : splitComma x = [x] := by
  induction x with
  | nil => rfl
  | cons c x ih =>
    have hc : c ≠ ',' := fun h => hx (by simp [h])
    rw [splitComma, if_neg hc, ih (fun h => hx (by simp [h]))]

theorem split_join {l : List Str} (hl : ∀ x ∈ l, ',' ∉ x) (hne : l ≠ []) : splitComma (joinComma l) = l := by
  induction l with
  | nil => exact absurd rfl hne
  | cons x r ih =>
    cases r with
    | nil => exact split_self (hl x (by simp))
    | cons y r =>
      rw [join_cons (by simp), split_append (hl x (by simp)), ih (fun z hz => hl z (by simp [hz])) (by simp)]

theorem cart_length (bs : List (List Str)) : (cartesian bs).length = (bs.map List.length).prod := by
  induction bs with
  | nil => rfl
  | cons b bs ih => simp [cartesian, List.length_flatMap, ih]

theorem flatMap_get {α β : Type} (f : α → List β) (m : ℕ) (b : List α) (hf : ∀ x ∈ b, (f x).length = m) (j r : ℕ) (x : α) (y : β)
    (hj : b[j]? = some x) (hr : (f x)[r]? = some y) : (b.flatMap f)[j * m + r]? = some y := by
  induction b generalizing j with
  | nil => simp at hj
  | cons z b ih =>
    rw [List.flatMap_cons]
    cases j with
    | zero =>
      simp only [List.getElem?_cons_zero, Option.some.injEq] at hj
      subst hj
      have hlt := (List.getElem?_eq_some_iff.mp hr).1
      rw [Nat.zero_mul, Nat.zero_add, List.getElem?_append_left hlt, hr]
    | succ j =>
      rw [List.getElem?_cons_succ] at hj
      have hz : (f z).length = m := hf z (by simp)
      rw [List.getElem?_append_right (by rw [hz, Nat.succ_mul]; omega), hz]
      have e : (j + 1) * m + r - m = j * m + r := by rw [Nat.succ_mul]; omega
      rw [e]
      exact ih (fun x hx => hf x (by simp [hx])) j hj

/-- The levels `p.1` with their labels `p.2` are levels of the bases. -/
abbrev Levels (bs : List (List Str)) (ps : List (ℕ × Str)) : Prop := List.Forall₂ (fun (b : List Str) (p : ℕ × Str) => b[p.1]? = some p.2) bs ps

theorem cart_get {bs : List (List Str)} {ps : List (ℕ × Str)} (h : Levels bs ps) :
    (cartesian bs)[position (bs.map List.length) (ps.map Prod.fst)]? = some (ps.map Prod.snd) := by
  induction h with
  | nil => rfl
  | @cons b p bs ps hb _ ih =>
    simp only [List.map_cons, position, cartesian]
    refine flatMap_get _ _ b (fun x _ => ?_) p.1 _ p.2 _ hb ?_
    · rw [List.length_map, cart_length]
    · rw [List.getElem?_map, ih]; rfl

theorem position_lt {bs : List (List Str)} {ps : List (ℕ × Str)} (h : Levels bs ps) :
    position (bs.map List.length) (ps.map Prod.fst) < (bs.map List.length).prod := by
  rw [← cart_length]
  exact (List.getElem?_eq_some_iff.mp (cart_get h)).1

theorem position_surj (bs : List (List Str)) (i : ℕ) (hi : i < (bs.map List.length).prod) :
    ∃ ps, Levels bs ps ∧ position (bs.map List.length) (ps.map Prod.fst) = i := by
  induction bs generalizing i with
  | nil => exact ⟨[], .nil, by simp at hi; simp [position, hi]⟩
  | cons b bs ih =>
    rw [List.map_cons, List.prod_cons] at hi
    have hm : 0 < (bs.map List.length).prod := by
      rcases Nat.eq_zero_or_pos (bs.map List.length).prod with h | h
      · rw [h] at hi; simp at hi
      · exact h
    obtain ⟨ps, h1, h2⟩ := ih (i % (bs.map List.length).prod) (Nat.mod_lt _ hm)
    have hq : i / (bs.map List.length).prod < b.length := Nat.div_lt_of_lt_mul (by rw [Nat.mul_comm]; exact hi)
    refine ⟨(i / (bs.map List.length).prod, b[i / (bs.map List.length).prod]) :: ps, .cons (List.getElem?_eq_getElem hq) h1, ?_⟩
    simp only [List.map_cons, position]
    rw [h2, Nat.mul_comm]
    exact Nat.div_add_mod _ _

theorem cart_mem {bs : List (List Str)} {t : List Str} : t ∈ cartesian bs ↔ List.Forall₂ (fun (b : List Str) s => s ∈ b) bs t := by
  induction bs generalizing t with
  | nil => simp [cartesian]
  | cons b bs ih =>
    simp only [cartesian, List.mem_flatMap, List.mem_map]
    constructor
    · rintro ⟨x, hx, r, hr, rfl⟩
      exact .cons hx (ih.mp hr)
    · intro h
      cases h with
      | cons hx hr => exact ⟨_, hx, _, ih.mpr hr, rfl⟩

/-! ### the states -/

/-- The factors of a product with their bases. -/
abbrev UsableAll (ls : List Loc) (bs : List (List Str)) : Prop := List.Forall₂ Loc.Usable ls bs

theorem labels_all {ls : List Loc} {bs : List (List Str)} (h : UsableAll ls bs) : ls.mapM Loc.labels = .ok bs := by
  induction h with
  | nil => rfl
  | @cons l b ls bs hl _ ih =>
    rw [List.mapM_cons, ih]
    have : l.labels = .ok b := by unfold Loc.labels; rw [hl.1]
    rw [this]; rfl

theorem basisKet_label {l : Loc} {b : List Str} (hl : l.Usable b) {i : ℕ} {s : Str} (h : b[i]? = some s) :
    basisKet l (.label s) = .ok ⟨l, s, i⟩ := by
  obtain ⟨h1, h2, h3⟩ := hl
  refine basisKet_ok.mpr ⟨?_, rfl, h3 s (List.mem_of_getElem? h)⟩
  obtain ⟨j, hj⟩ := indexOf?_none (List.mem_of_getElem? h)
  obtain ⟨e1, e2, -⟩ := indexOf?_some hj
  have hidx : j = i := by
    obtain ⟨g1, g2⟩ := List.getElem?_eq_some_iff.mp h
    obtain ⟨g3, g4⟩ := List.getElem?_eq_some_iff.mp e1
    exact (List.Nodup.getElem_inj_iff h2).mp (g4.trans g2.symm)
  unfold unpack
  simp only [h1, hj, hidx]

theorem basisKet_bad {l : Loc} {b : List Str} (hl : l.Usable b) {s : Str} (h : s ∉ b) : basisKet l (.label s) = .error .valueError := by
  have : unpack l (.label s) = .error .valueError := by
    unfold unpack
    have : indexOf? b s = none := by unfold indexOf?; rw [List.idxOf?_eq_none_iff]; exact h
    simp only [hl.1, this]
  unfold basisKet
  rw [this]; rfl

/-- The product state with the given levels. -/
def stateOf (ls : List Loc) (ps : List (ℕ × Str)) : List BKet := List.zipWith (fun l p => (⟨l, p.2, (p.1 : ℕ)⟩ : BKet)) ls ps

theorem stateOf_spaces {ls : List Loc} {ps : List (ℕ × Str)} (h : ls.length = ps.length) : (stateOf ls ps).map BKet.space = ls := by
  induction ls generalizing ps with
  | nil => rfl
  | cons l ls ih =>
    cases ps with
    | nil => simp at h
    | cons p ps => simp only [stateOf, List.zipWith_cons_cons, List.map_cons]; congr 1; exact ih (by simpa using h)

theorem kets_ok {ls : List Loc} {bs : List (List Str)} (h : UsableAll ls bs) {ps : List (ℕ × Str)} (hp : Levels bs ps) :
    ((ls.zip (ps.map Prod.snd)).mapM fun p : Loc × Str => basisKet p.1 (.label p.2)) = .ok (stateOf ls ps) := by
  induction h generalizing ps with
  | nil => cases hp; rfl
  | @cons l b ls bs hl _ ih =>
    cases hp with
    | @cons _ p _ ps hp hps =>
      rw [List.map_cons, List.zip_cons_cons, List.mapM_cons, ih hps, basisKet_label hl hp]
      rfl

theorem tensor_ok {ls : List Loc} {bs : List (List Str)} (h : UsableAll ls bs) (hn : ls.Nodup) {ps : List (ℕ × Str)} (hp : Levels bs ps) :
    tensorKet ls (ps.map Prod.snd) = .ok (stateOf ls ps) := by
  unfold tensorKet
  rw [kets_ok h hp]
  have hlen : ls.length = ps.length := h.length_eq.trans hp.length_eq
  show (if ((stateOf ls ps).map BKet.space).Nodup then (Except.ok (stateOf ls ps) : Res _) else .error .algebraError) = _
  rw [stateOf_spaces hlen, if_pos hn]

theorem kets_bad {ls : List Loc} {bs : List (List Str)} (h : UsableAll ls bs) {t : List Str} (hlen : t.length = ls.length)
    (hb : ¬ List.Forall₂ (fun (b : List Str) s => s ∈ b) bs t) :
    ((ls.zip t).mapM fun p : Loc × Str => basisKet p.1 (.label p.2)) = .error .valueError := by
  induction h generalizing t with
  | nil => cases t with
    | nil => exact absurd .nil hb
    | cons s t => simp at hlen
  | @cons l b ls bs hl hls ih =>
    cases t with
    | nil => simp at hlen
    | cons s t =>
      rw [List.zip_cons_cons, List.mapM_cons]
      by_cases hs : s ∈ b
      · obtain ⟨i, hi, e⟩ := List.getElem_of_mem hs
        rw [basisKet_label hl (s := s) (i := i) (by rw [List.getElem?_eq_getElem hi, e])]
        rw [ih (by simpa using hlen) (fun hc => hb (.cons hs hc))]
        rfl
      · rw [basisKet_bad hl hs]; rfl

theorem mapM_ok_of {α β : Type} {f : α → Res β} {g : α → β} {l : List α} (h : ∀ x ∈ l, f x = .ok (g x)) : l.mapM f = .ok (l.map g) := by
  induction l with
  | nil => rfl
  | cons x l ih => rw [List.mapM_cons, h x (by simp), ih (fun y hy => h y (by simp [hy]))]; rfl

theorem levels_of_mem {bs : List (List Str)} {t : List Str} (h : List.Forall₂ (fun (b : List Str) s => s ∈ b) bs t) :
    ∃ ps, Levels bs ps ∧ ps.map Prod.snd = t := by
  induction h with
  | nil => exact ⟨[], .nil, rfl⟩
  | @cons b s bs t hs _ ih =>
    obtain ⟨ps, h1, h2⟩ := ih
    obtain ⟨i, hi, e⟩ := List.getElem_of_mem hs
    exact ⟨(i, s) :: ps, .cons (by rw [List.getElem?_eq_getElem hi, e]) h1, by simp [h2]⟩

theorem dim_all {ls : List Loc} {bs : List (List Str)} (h : UsableAll ls bs) (hw : ∀ l ∈ ls, l.WF) (acc : ℕ) :
    (ls.foldlM (fun acc l => match l.dim with
      | some d => .ok (acc * d)
      | none => .error .basisNotSet) acc : Res ℕ) = .ok (acc * (bs.map List.length).prod) := by
  induction h generalizing acc with
  | nil => simp; rfl
  | @cons l b ls bs hl _ ih =>
    have hd : l.dim = some b.length := by have := hw l (by simp); unfold Loc.WF at this; rw [this, hl.1]; rfl
    rw [List.foldlM_cons]
    simp only [hd]
    show (List.foldlM _ (acc * b.length) ls : Res ℕ) = _
    rw [ih (fun l hl => hw l (by simp [hl])), List.map_cons, List.prod_cons, Nat.mul_assoc]

/-- What a user expects of the basis of a space with the local factors `ls`: `labels`, `states` and `dim` are what `basis_labels`,
`basis_states` and `dimension` return, `get` is `basis_state`. -/
structure IsBasis (ls : List Loc) (labels : List Str) (states : List (List BKet)) (dim : ℕ) (get : LabelIdx → Res (List BKet)) : Prop where
  /-- as many labels and states as dimensions -/
  labels_length : labels.length = dim
  states_length : states.length = dim
  /-- all labels are different, all states are different -/
  labels_nodup : labels.Nodup
  states_nodup : states.Nodup
  /-- every state is a product of one basis state for every local factor … -/
  factors : ∀ K ∈ states, K.map BKet.space = ls ∧ ∀ k ∈ K, basisKet k.space (.label k.label) = .ok k
  /-- … and all such products occur -/
  complete : ∀ K : List BKet, K.map BKet.space = ls → (∀ k ∈ K, ∃ x, basisKet k.space x = .ok k) → K ∈ states
  /-- states and labels are listed in the order in which the last factor runs fastest -/
  order : ∀ (i : ℕ) (K : List BKet), states[i]? = some K → i = position (ls.map fun l => l.dim.getD 0) (K.map fun k => k.index.toNat)
  label : ∀ (i : ℕ) (K : List BKet), states[i]? = some K → labels[i]? = some (joinComma (K.map BKet.label))
  /-- `basis_state` finds the states by number and by label -/
  by_index : ∀ (i : ℕ) (K : List BKet), states[i]? = some K → get (.index i) = .ok K
  by_label : ∀ (i : ℕ) (K : List BKet) (s : Str), states[i]? = some K → labels[i]? = some s → get (.label s) = .ok K
  /-- and reports numbers and labels that do not exist -/
  bad_index : ∀ i : ℕ, dim ≤ i → get (.index i) = .error .indexError
  bad_label : ∀ s, s ∉ labels → get (.label s) = .error .keyError

theorem position_inj {bs : List (List Str)} {ps qs : List (ℕ × Str)} (hp : Levels bs ps) (hq : Levels bs qs)
    (h : position (bs.map List.length) (ps.map Prod.fst) = position (bs.map List.length) (qs.map Prod.fst)) (hn : ∀ b ∈ bs, b.Nodup) :
    ps = qs := by
  have h1 := cart_get hp
  rw [h, cart_get hq] at h1
  injection h1 with h1
  clear h
  induction hp generalizing qs with
  | nil => cases hq; rfl
  | @cons b p bs ps hb hps ih =>
    cases hq with
    | @cons _ q _ qs hq hqs =>
      simp only [List.map_cons, List.cons.injEq] at h1
      have : q.1 = p.1 := by
        obtain ⟨g1, g2⟩ := List.getElem?_eq_some_iff.mp hb
        obtain ⟨g3, g4⟩ := List.getElem?_eq_some_iff.mp hq
        exact (List.Nodup.getElem_inj_iff (hn b (by simp))).mp (by rw [g2, g4, h1.1])
      rw [ih hqs (fun b hb => hn b (by simp [hb])) h1.2]
      congr 1
      exact Prod.ext this.symm h1.1.symm

section core
variable {ls : List Loc} {bs : List (List Str)} {states : List (List BKet)}

theorem states_get (h : UsableAll ls bs) (hn : ls.Nodup) (hst : List.Forall₂ (fun t K => tensorKet ls t = .ok K) (cartesian bs) states)
    {i : ℕ} {K : List BKet} (hi : states[i]? = some K) :
    ∃ ps, Levels bs ps ∧ position (bs.map List.length) (ps.map Prod.fst) = i ∧ K = stateOf ls ps ∧
      (cartesian bs)[i]? = some (ps.map Prod.snd) := by
  have hlt : i < (bs.map List.length).prod := by
    rw [← cart_length, hst.length_eq]; exact (List.getElem?_eq_some_iff.mp hi).1
  obtain ⟨ps, h1, h2⟩ := position_surj bs i hlt
  have h3 := cart_get h1
  rw [h2] at h3
  refine ⟨ps, h1, h2, ?_, h3⟩
  obtain ⟨g1, g2⟩ := List.getElem?_eq_some_iff.mp hi
  obtain ⟨g3, g4⟩ := List.getElem?_eq_some_iff.mp h3
  have := (List.forall₂_iff_get.mp hst).2 i g3 g1
  simp only [List.get_eq_getElem, g2, g4] at this
  rw [tensor_ok h hn h1] at this
  injection this with this
  exact this.symm

theorem states_of (h : UsableAll ls bs) (hn : ls.Nodup) (hst : List.Forall₂ (fun t K => tensorKet ls t = .ok K) (cartesian bs) states)
    {ps : List (ℕ × Str)} (hp : Levels bs ps) :
    states[position (bs.map List.length) (ps.map Prod.fst)]? = some (stateOf ls ps) := by
  have h3 := cart_get hp
  obtain ⟨g3, g4⟩ := List.getElem?_eq_some_iff.mp h3
  have g1 : position (bs.map List.length) (ps.map Prod.fst) < states.length := by rw [← hst.length_eq]; exact g3
  have := (List.forall₂_iff_get.mp hst).2 _ g3 g1
  simp only [List.get_eq_getElem, g4] at this
  rw [tensor_ok h hn hp] at this
  injection this with this
  rw [List.getElem?_eq_getElem g1, ← this]

theorem stateOf_index {ls : List Loc} {ps : List (ℕ × Str)} (h : ls.length = ps.length) :
    (stateOf ls ps).map (fun k => k.index.toNat) = ps.map Prod.fst ∧ (stateOf ls ps).map BKet.label = ps.map Prod.snd := by
  induction ls generalizing ps with
  | nil => cases ps with
    | nil => exact ⟨rfl, rfl⟩
    | cons p ps => simp at h
  | cons l ls ih =>
    cases ps with
    | nil => simp at h
    | cons p ps =>
      obtain ⟨h1, h2⟩ := ih (ps := ps) (by simpa using h)
      simp only [stateOf, List.zipWith_cons_cons, List.map_cons] at h1 h2 ⊢
      exact ⟨by rw [h1]; simp, by rw [h2]⟩

theorem stateOf_inj {ls : List Loc} {ps qs : List (ℕ × Str)} (hp : ls.length = ps.length) (hq : ls.length = qs.length)
    (h : stateOf ls ps = stateOf ls qs) : ps = qs := by
  have h1 := stateOf_index hp
  have h2 := stateOf_index hq
  rw [h] at h1
  have e1 := h1.1.symm.trans h2.1
  have e2 := h1.2.symm.trans h2.2
  clear h h1 h2 hp hq
  induction ps generalizing qs with
  | nil => cases qs with
    | nil => rfl
    | cons q qs => simp at e1
  | cons p ps ih =>
    cases qs with
    | nil => simp at e1
    | cons q qs =>
      simp only [List.map_cons, List.cons.injEq] at e1 e2
      rw [ih e1.2 e2.2, Prod.ext e1.1 e2.1]

theorem complete_of (h : UsableAll ls bs) (hw : ∀ l ∈ ls, l.WF) {K : List BKet} (hK : K.map BKet.space = ls)
    (hk : ∀ k ∈ K, ∃ x, basisKet k.space x = .ok k) : ∃ ps, Levels bs ps ∧ K = stateOf ls ps := by
  induction h generalizing K with
  | nil => simp only [List.map_eq_nil_iff] at hK; exact ⟨[], .nil, hK⟩
  | @cons l b ls bs hl _ ih =>
    cases K with
    | nil => simp at hK
    | cons k K =>
      simp only [List.map_cons, List.cons.injEq] at hK
      obtain ⟨ps, h1, h2⟩ := ih (fun l hl => hw l (by simp [hl])) hK.2 (fun k hk' => hk k (by simp [hk']))
      obtain ⟨x, hx⟩ := hk k (by simp)
      obtain ⟨g1, -, -⟩ := basisKet_ok.mp hx
      rw [hK.1] at g1
      obtain ⟨g2, g3, -, -⟩ := unpack_spec (hw l (by simp)) g1
      unfold Loc.IsLabel at g3
      rw [hl.1] at g3
      simp only at g3
      refine ⟨(k.index.toNat, k.label) :: ps, .cons g3 h1, ?_⟩
      rw [h2]
      simp only [stateOf, List.zipWith_cons_cons, List.cons.injEq, and_true]
      have : ((k.index.toNat : ℕ) : ℤ) = k.index := by have := g2.1; simp only at this; omega
      obtain ⟨a, b, c⟩ := k
      simp only at this hK ⊢
      rw [this, hK.1]

theorem usable_bs (h : UsableAll ls bs) : ∀ b ∈ bs, b.Nodup := by
  induction h with
  | nil => simp
  | @cons l b ls bs hl _ ih =>
    intro c hc
    rcases List.mem_cons.mp hc with rfl | hc
    · exact hl.2.1
    · exact ih c hc

theorem usable_dims (h : UsableAll ls bs) (hw : ∀ l ∈ ls, l.WF) : (ls.map fun l => l.dim.getD 0) = bs.map List.length := by
  induction h with
  | nil => rfl
  | @cons l b ls bs hl _ ih =>
    have hd : l.dim = some b.length := by have := hw l (by simp); unfold Loc.WF at this; rw [this, hl.1]; rfl
    rw [List.map_cons, ih (fun l hl => hw l (by simp [hl])), hd]; rfl

theorem isBasis_core (h : UsableAll ls bs) (hn : ls.Nodup) (hw : ∀ l ∈ ls, l.WF)
    (hst : List.Forall₂ (fun t K => tensorKet ls t = .ok K) (cartesian bs) states) {get : LabelIdx → Res (List BKet)} {spl : Str → List Str}
    (hidx : ∀ i : ℕ, get (.index i) = (match (cartesian bs)[i]? with
      | some t => rethrow .indexError (tensorKet ls t)
      | none => .error .indexError))
    (hlab : ∀ s, get (.label s) = if (spl s).length ≠ ls.length then .error .keyError else rethrow .keyError (tensorKet ls (spl s)))
    (hs1 : ∀ t ∈ cartesian bs, spl (joinComma t) = t) (hs2 : ∀ s, joinComma (spl s) = s) :
    IsBasis ls ((cartesian bs).map joinComma) states (bs.map List.length).prod get := by
  have hlen : ∀ {ps}, Levels bs ps → ls.length = ps.length := fun hp => h.length_eq.trans hp.length_eq
  have hlabel : ∀ (i : ℕ) (K : List BKet), states[i]? = some K → ((cartesian bs).map joinComma)[i]? = some (joinComma (K.map BKet.label)) := by
    intro i K hi
    obtain ⟨ps, h1, h2, h3, h4⟩ := states_get h hn hst hi
    rw [List.getElem?_map, h4, h3, (stateOf_index (hlen h1)).2]; rfl
  have hby : ∀ (i : ℕ) (K : List BKet) (s : Str), states[i]? = some K → ((cartesian bs).map joinComma)[i]? = some s → get (.label s) = .ok K := by
    intro i K s hi hl
    obtain ⟨ps, h1, h2, h3, h4⟩ := states_get h hn hst hi
    rw [List.getElem?_map, h4] at hl
    injection hl with hl
    rw [hlab, ← hl, hs1 _ (List.mem_of_getElem? h4), if_neg (by rw [List.length_map, hlen h1]; simp), tensor_ok h hn h1, h3]
    rfl
  have hord : ∀ (i : ℕ) (K : List BKet), states[i]? = some K →
      i = position (ls.map fun l => l.dim.getD 0) (K.map fun k => k.index.toNat) := by
    intro i K hi
    obtain ⟨ps, h1, h2, h3, h4⟩ := states_get h hn hst hi
    rw [usable_dims h hw, h3, (stateOf_index (hlen h1)).1, h2]
  have hsl : states.length = (bs.map List.length).prod := by rw [← hst.length_eq, cart_length]
  have hll : ((cartesian bs).map joinComma).length = (bs.map List.length).prod := by rw [List.length_map, cart_length]
  refine ⟨hll, hsl, ?_, ?_, ?_, ?_, hord, hlabel, ?_, hby, ?_, ?_⟩
  · rw [List.nodup_iff_injective_get]
    rintro ⟨i, hi⟩ ⟨j, hj⟩ e
    simp only [List.get_eq_getElem] at e
    have hi' : i < states.length := by rw [hsl, ← hll]; exact hi
    have hj' : j < states.length := by rw [hsl, ← hll]; exact hj
    have e1 := hby i _ _ (List.getElem?_eq_getElem hi') (List.getElem?_eq_getElem hi)
    have e2 := hby j _ _ (List.getElem?_eq_getElem hj') (List.getElem?_eq_getElem hj)
    rw [e, e2] at e1
    injection e1 with e1
    have o1 := hord i _ (List.getElem?_eq_getElem hi')
    have o2 := hord j _ (List.getElem?_eq_getElem hj')
    rw [e1] at o2
    exact Fin.ext (o1.trans o2.symm)
  · rw [List.nodup_iff_injective_get]
    rintro ⟨i, hi⟩ ⟨j, hj⟩ e
    simp only [List.get_eq_getElem] at e
    have o1 := hord i _ (List.getElem?_eq_getElem hi)
    have o2 := hord j _ (List.getElem?_eq_getElem hj)
    rw [e] at o1
    exact Fin.ext (o1.trans o2.symm)
  · intro K hK
    obtain ⟨i, hi, e⟩ := List.getElem_of_mem hK
    obtain ⟨ps, h1, h2, h3, h4⟩ := states_get h hn hst (i := i) (K := K) (by rw [List.getElem?_eq_getElem hi, e])
    subst h3
    refine ⟨stateOf_spaces (hlen h1), ?_⟩
    have : ∀ {ls : List Loc} {bs : List (List Str)} {ps : List (ℕ × Str)}, UsableAll ls bs → Levels bs ps →
        ∀ k ∈ stateOf ls ps, basisKet k.space (.label k.label) = .ok k := by
      intro ls bs ps h
      induction h generalizing ps with
      | nil => intro _ k hk; simp [stateOf] at hk
      | @cons l b ls bs hl _ ih =>
        intro hp
        cases hp with
        | @cons _ p _ ps hp hps =>
          intro k hk
          simp only [stateOf, List.zipWith_cons_cons, List.mem_cons] at hk
          rcases hk with rfl | hk
          · exact basisKet_label hl hp
          · exact ih hps k hk
    exact this h h1
  · intro K hK hk
    obtain ⟨ps, h1, rfl⟩ := complete_of h hw hK hk
    exact List.mem_of_getElem? (states_of h hn hst h1)
  · intro i K hi
    obtain ⟨ps, h1, h2, h3, h4⟩ := states_get h hn hst hi
    rw [hidx, h4]
    simp only
    rw [tensor_ok h hn h1, h3]
    rfl
  · intro i hi
    rw [hidx, List.getElem?_eq_none (by rw [cart_length]; exact hi)]
  · intro s hs
    rw [hlab]
    split
    · rfl
    · rename_i hl
      have hnm : ¬ List.Forall₂ (fun (b : List Str) s => s ∈ b) bs (spl s) := by
        intro hc
        exact hs (List.mem_map.mpr ⟨spl s, cart_mem.mpr hc, hs2 s⟩)
      unfold tensorKet
      rw [kets_bad h (not_not.mp hl) hnm]
      rfl

theorem states_exist (h : UsableAll ls bs) (hn : ls.Nodup) :
    ∃ states, (cartesian bs).mapM (tensorKet ls) = .ok states ∧ List.Forall₂ (fun t K => tensorKet ls t = .ok K) (cartesian bs) states := by
  have hall : ∀ t ∈ cartesian bs, ∃ K, tensorKet ls t = .ok K := by
    intro t ht
    obtain ⟨ps, h1, rfl⟩ := levels_of_mem (cart_mem.mp ht)
    exact ⟨_, tensor_ok h hn h1⟩
  generalize cartesian bs = l at hall ⊢
  induction l with
  | nil => exact ⟨[], rfl, .nil⟩
  | cons t l ih =>
    obtain ⟨K, hK⟩ := hall t (by simp)
    obtain ⟨st, h1, h2⟩ := ih (fun x hx => hall x (by simp [hx]))
    exact ⟨K :: st, by rw [List.mapM_cons, hK, h1]; rfl, .cons hK h2⟩

end core

/-- C82 for a product space: if the labels of every factor are distinct, can be labels of kets and contain no comma, then `basis_labels`,
`basis_states`, `basis_state` and `dimension` describe the same basis, the products of the local basis states. -/
theorem C82_product_partial {ls : List Loc} (hr : Reachable (.prod ls)) {bs : List (List Str)} (h : List.Forall₂ Loc.Usable ls bs)
    (hc : ∀ b ∈ bs, ∀ s ∈ b, ',' ∉ s) (spin : Bool) :
    ∃ labels states dim, basisLabels (.prod ls) = .ok labels ∧ basisStates (.prod ls) = .ok states ∧ dimension (.prod ls) = .ok dim ∧
      IsBasis ls labels states dim (basisState spin (.prod ls)) := by
  have hwf : Space.WF (.prod ls) := hr.wf
  have hw : ∀ l ∈ ls, l.WF := hwf.2.1
  have hn : ls.Nodup := Space.WF.nodup hwf
  have hne : ls ≠ [] := by intro e; have := hwf.1; rw [e] at this; simp at this
  obtain ⟨states, hst, hF⟩ := states_exist h hn
  refine ⟨(cartesian bs).map joinComma, states, (bs.map List.length).prod, ?_, ?_, ?_, ?_⟩
  · simp only [basisLabels]; rw [labels_all h]; rfl
  · simp only [basisStates]; rw [labels_all h]; exact hst
  · exact (dim_all h hw 1).trans (by rw [Nat.one_mul])
  · refine isBasis_core h hn hw hF (spl := splitComma) ?_ ?_ ?_ join_split
    · intro i
      simp only [basisState]
      rw [labels_all h]
      show (pyIndex (cartesian bs) i).bind _ = _
      unfold pyIndex
      rw [if_pos (by omega), Int.toNat_natCast]
      cases (cartesian bs)[i]? <;> rfl
    · intro s; rfl
    · intro t ht
      have hm := cart_mem.mp ht
      refine split_join ?_ ?_
      · clear ht hne hn hw hst hF hr
        have : ∀ {bs : List (List Str)} {t : List Str}, (∀ b ∈ bs, ∀ s ∈ b, ',' ∉ s) → List.Forall₂ (fun (b : List Str) s => s ∈ b) bs t →
            ∀ x ∈ t, ',' ∉ x := by
          intro bs t hc hm
          induction hm with
          | nil => simp
          | @cons b s bs t hs _ ih =>
            intro x hx
            rcases List.mem_cons.mp hx with rfl | hx
            · exact hc b (by simp) _ hs
            · exact ih (fun b hb => hc b (by simp [hb])) x hx
        exact this hc hm
      · intro e
        rw [e] at hm
        cases hm
        cases h
        exact hne rfl

/-- C82 for a local space (a `LocalSpace`, not a `SpinSpace`). -/
theorem C82_local_partial {l : Loc} (hr : Reachable (.loc l)) {b : List Str} (h : l.Usable b) :
    ∃ labels states dim, basisLabels (.loc l) = .ok labels ∧ basisStates (.loc l) = .ok states ∧ dimension (.loc l) = .ok dim ∧
      IsBasis [l] labels states dim (basisState false (.loc l)) := by
  have hw : l.WF := hr.wf
  have hU : UsableAll [l] [b] := .cons h .nil
  have hcart : cartesian [b] = b.map fun s => [s] := by
    simp only [cartesian, List.map_cons, List.map_nil]
    clear h hU
    induction b with
    | nil => rfl
    | cons x b ih => rw [List.flatMap_cons, ih]; rfl
  have htk : ∀ s, tensorKet [l] [s] = (basisKet l (.label s)).map fun k => [k] := by
    intro s
    unfold tensorKet
    simp only [List.zip_cons_cons, List.zip_nil_left, List.mapM_cons, List.mapM_nil]
    cases basisKet l (.label s) with
    | error e => rfl
    | ok k =>
      show (if ([k].map BKet.space).Nodup then (Except.ok [k] : Res _) else .error .algebraError) = _
      rw [if_pos (by simp)]; rfl
  have hlabels : l.labels = .ok b := by unfold Loc.labels; rw [h.1]
  obtain ⟨states, hst, hF⟩ := states_exist hU (by simp)
  refine ⟨(cartesian [b]).map joinComma, states, ([b].map List.length).prod, ?_, ?_, ?_, ?_⟩
  · simp only [basisLabels]; rw [hlabels, hcart, List.map_map]
    congr 1
    conv_lhs => rw [← List.map_id b]
    exact List.map_congr_left fun s _ => rfl
  · simp only [basisStates]
    rw [hlabels, ← hst, hcart]
    show List.mapM _ b = _
    rw [List.mapM_map]
    congr 1
    funext s
    exact (htk s).symm
  · simp only [dimension]
    unfold Loc.WF at hw
    rw [h.1] at hw
    simp [hw]
  · refine isBasis_core hU (by simp) (by simpa using hw) hF (spl := fun s => [s]) ?_ ?_ ?_ (fun s => rfl)
    · intro i
      simp only [basisState, Bool.false_eq_true, if_false]
      rw [hcart, List.getElem?_map]
      cases hb : b[i]? with
      | none =>
        have hlt := List.getElem?_eq_none_iff.mp hb
        have : unpack l (.index i) = .error .valueError := by
          have hd : l.dim = some b.length := by unfold Loc.WF at hw; rw [hw, h.1]; rfl
          unfold unpack
          simp only [h.1, hd]
          rw [if_neg (by omega), if_pos (by omega)]
        have : basisKet l (.index i) = .error .valueError := by unfold basisKet; rw [this]; rfl
        rw [this]; rfl
      | some s =>
        have hk := basisKet_label h hb
        have := ((C27_roundtrip hr h.1).1 s _ hk)
        simp only at this
        rw [this]
        simp only [Option.map_some]
        rw [htk, hk]
    · intro s
      simp only [basisState]
      rw [htk]
      rfl
    · intro t ht
      rw [hcart] at ht
      obtain ⟨s, -, rfl⟩ := List.mem_map.mp ht
      rfl

/-- C82 for the trivial space: one state, with the number 0 and the label `0`. -/
theorem C82_trivial_partial (spin : Bool) :
    basisLabels .trivial = .ok [['0']] ∧ basisStates .trivial = .ok [[]] ∧ dimension .trivial = .ok 1 ∧
    basisState spin .trivial (.index 0) = .ok [] ∧ basisState spin .trivial (.label ['0']) = .ok [] ∧
    ∀ i, i ≠ 0 → basisState spin .trivial (.index i) = .error .indexError := by
  refine ⟨rfl, rfl, rfl, rfl, rfl, fun i hi => ?_⟩
  simp only [basisState, if_neg hi]

/-- C82: without a basis of one of the factors everything raises `BasisNotSetError`, except that `basis_state` may refuse a label first. -/
theorem C82_no_basis {ls : List Loc} (hr : Reachable (.prod ls)) (h : ∃ l ∈ ls, l.basis = none) (spin : Bool) (i : ℤ) :
    basisLabels (.prod ls) = .error .basisNotSet ∧ basisStates (.prod ls) = .error .basisNotSet ∧
    dimension (.prod ls) = .error .basisNotSet ∧ basisState spin (.prod ls) (.index i) = .error .basisNotSet := by
  have hwf : Space.WF (.prod ls) := hr.wf
  have hm : ls.mapM Loc.labels = .error .basisNotSet := by
    clear hwf hr
    obtain ⟨l, hl, hb⟩ := h
    induction ls with
    | nil => simp at hl
    | cons m ls ih =>
      rw [List.mapM_cons]
      cases hm : m.basis with
      | none =>
        have : m.labels = .error .basisNotSet := by unfold Loc.labels; rw [hm]
        rw [this]; rfl
      | some b =>
        have hlm : l ∈ ls := by
          rcases List.mem_cons.mp hl with rfl | h
          · rw [hb] at hm; cases hm
          · exact h
        have : m.labels = .ok b := by unfold Loc.labels; rw [hm]
        rw [this, ih hlm]; rfl
  have hd : ∀ acc : ℕ, (ls.foldlM (fun acc l => match l.dim with
      | some d => .ok (acc * d)
      | none => .error .basisNotSet) acc : Res ℕ) = .error .basisNotSet := by
    have hw := hwf.2.1
    clear hwf hr hm
    obtain ⟨l, hl, hb⟩ := h
    induction ls with
    | nil => simp at hl
    | cons m ls ih =>
      intro acc
      rw [List.foldlM_cons]
      have hmw := hw m (by simp)
      unfold Loc.WF at hmw
      cases hm : m.basis with
      | none => rw [hm] at hmw; simp only [hmw, Option.map_none]; rfl
      | some b =>
        have hlm : l ∈ ls := by
          rcases List.mem_cons.mp hl with rfl | h
          · rw [hb] at hm; cases hm
          · exact h
        rw [hm] at hmw
        simp only [hmw, Option.map_some]
        exact ih (fun l hl => hw l (List.mem_cons_of_mem _ hl)) hlm _
  refine ⟨?_, ?_, ?_, ?_⟩
  · simp only [basisLabels]; rw [hm]; rfl
  · simp only [basisStates]; rw [hm]; rfl
  · simp only [dimension]; exact hd 1
  · simp only [basisState]; rw [hm]; rfl

/-! ### refutations and examples -/

/-- `LocalSpace('a', basis=('g', 'e'))` -/
def exA : Loc := ⟨['a'], some [['g'], ['e']], some 2, [], none⟩
/-- `LocalSpace('b', dimension=3)` -/
def exB : Loc := ⟨['b'], some [['0'], ['1'], ['2']], some 3, [], none⟩
/-- `LocalSpace('c', basis=('x', 'x,y'))` -/
def exC : Loc := ⟨['c'], some [['x'], ['x', ',', 'y']], some 2, [], none⟩
/-- `LocalSpace('d', basis=('y,z', 'z'))` -/
def exD : Loc := ⟨['d'], some [['y', ',', 'z'], ['z']], some 2, [], none⟩
/-- `LocalSpace('e', basis=('g', 'g'))` -/
def exE : Loc := ⟨['e'], some [['g'], ['g']], some 2, [], none⟩

/-- some order of iteration over sets -/
def anyOrder : SetOrder Space := ⟨List.dedup, fun _ => List.Perm.refl _⟩

example : mkLocal ['a'] (some [['g'], ['e']]) none [] none = .ok exA ∧ mkLocal ['b'] none (some 3) [] none = .ok exB ∧
    create anyOrder [.loc exA, .loc exB] = .ok (.prod [exA, exB]) := by decide +kernel

example : exA.Usable [['g'], ['e']] ∧ exB.Usable [['0'], ['1'], ['2']] := by
  refine ⟨⟨rfl, by decide, by decide +kernel⟩, ⟨rfl, by decide, by decide +kernel⟩⟩

example : basisLabels (.prod [exA, exB]) = .ok ["g,0".toList, "g,1".toList, "g,2".toList, "e,0".toList, "e,1".toList, "e,2".toList] ∧
    basisState false (.prod [exA, exB]) (.index 4) = .ok [⟨exA, ['e'], 1⟩, ⟨exB, ['1'], 1⟩] ∧
    basisState false (.prod [exA, exB]) (.label "e,1".toList) = .ok [⟨exA, ['e'], 1⟩, ⟨exB, ['1'], 1⟩] ∧
    position [2, 3] [1, 1] = 4 := by decide +kernel

/-- C82: the full space has no basis: everything raises `BasisNotSetError`. -/
theorem C82_no_basis_full (spin : Bool) (x : LabelIdx) :
    basisLabels .full = .error .basisNotSet ∧ basisStates .full = .error .basisNotSet ∧ dimension .full = .error .basisNotSet ∧
    basisState spin .full x = .error .basisNotSet := ⟨rfl, rfl, rfl, rfl⟩

/-- C82: a local space without a basis has no labels, no states and no dimension. -/
theorem C82_no_basis_local {l : Loc} (hr : Reachable (.loc l)) (h : l.basis = none) :
    basisLabels (.loc l) = .error .basisNotSet ∧ basisStates (.loc l) = .error .basisNotSet ∧
    dimension (.loc l) = .error .basisNotSet := by
  have hw : l.WF := hr.wf
  have h1 : l.labels = .error .basisNotSet := by unfold Loc.labels; rw [h]
  refine ⟨h1, by simp only [basisStates, h1]; rfl, ?_⟩
  have h2 : l.dim = none := by
    cases hd : l.dim with
    | none => rfl
    | some d => exact absurd hw (by simp [Loc.WF, h, hd])
  simp only [dimension, h2]

/-- C82 is false of the code for negative numbers: `basis_state(-1)` of a product is the last state instead of an `IndexError` (which a
local space raises). -/
theorem C82_refuted_negative :
    basisState false (.prod [exA, exB]) (.index (-1)) = .ok [⟨exA, ['e'], 1⟩, ⟨exB, ['2'], 2⟩] ∧
    basisState false (.loc exB) (.index (-1)) = .error .indexError := by decide +kernel

/-- C82 is false of the code for labels that contain commas: two basis states have the same label, and no label leads to them. -/
theorem C82_refuted_comma :
    create anyOrder [.loc exC, .loc exD] = .ok (.prod [exC, exD]) ∧
    basisLabels (.prod [exC, exD]) = .ok ["x,y,z".toList, "x,z".toList, "x,y,y,z".toList, "x,y,z".toList] ∧
    basisState false (.prod [exC, exD]) (.label "x,y,z".toList) = .error .keyError ∧
    basisState false (.prod [exC, exD]) (.index 0) = .ok [⟨exC, ['x'], 0⟩, ⟨exD, ['y', ',', 'z'], 0⟩] := by decide +kernel

/-- C82 is false of the code for repeated labels, which `LocalSpace` accepts: both states of the list are the same. -/
theorem C82_refuted_repeated :
    mkLocal ['e'] (some [['g'], ['g']]) none [] none = .ok exE ∧ dimension (.loc exE) = .ok 2 ∧
    basisStates (.loc exE) = .ok [[⟨exE, ['g'], 0⟩], [⟨exE, ['g'], 0⟩]] := by decide +kernel

/-- C82 is false of the code for labels that kets cannot have: the state exists, but is reported as an `IndexError`. -/
theorem C82_refuted_label :
    dimension (.loc arrows) = .ok 2 ∧ basisStates (.loc arrows) = .error .valueError ∧
    basisState false (.loc arrows) (.index 1) = .error .indexError := by decide +kernel

/-- C82 is false of the code for a wrong label of the trivial space (`TypeError` instead of `KeyError`), and for the numbers of the levels
of a `SpinSpace` (`TypeError`). -/
theorem C82_refuted_type :
    basisState false .trivial (.label ['1']) = .error .typeError ∧ basisState true (.loc exA) (.index 0) = .error .typeError := by
  decide +kernel

end QNET.Hilbert
