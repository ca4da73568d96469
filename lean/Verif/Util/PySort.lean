import Verif.Util.Sort
import Mathlib.Data.List.Basic
import Mathlib.Data.List.TakeWhile
import Mathlib.Data.List.Infix
import Mathlib.Algebra.BigOperators.Group.List.Basic

/-!
# CPython's `list.sort`

For fewer than 64 elements, `list.sort` finds the initial run (ascending, or strictly descending and then reversed) and inserts the
remaining elements one by one by binary search (`count_run`, `binarysort` in CPython's `Objects/listobject.c`). `pysort` is a literal
model. For a comparison that is a strict weak order the result is that of every stable sort (`pysort_eq_isort`).
-/

namespace QNET

variable {α : Type _}

/-- binary search of `binarysort`: position after the last element not greater than `x`, between `l` and `r` -/
def bisect (lt : α → α → Bool) (x : α) (arr : List α) (l r : Nat) : Nat :=
  if h : l < r then
    let p := l + (r - l) / 2
    match arr[p]? with
    | some y => if lt x y then bisect lt x arr l p else bisect lt x arr (p + 1) r
    | none => l
  else l
termination_by r - l
decreasing_by all_goals omega

/-- insertion of one element by binary search -/
def binInsert (lt : α → α → Bool) (acc : List α) (x : α) : List α :=
  let p := bisect lt x acc 0 acc.length
  acc.take p ++ x :: acc.drop p

/-- length of the descending run that continues after `a` -/
def descRun (lt : α → α → Bool) : α → List α → List α × List α
  | _, [] => ([], [])
  | a, b :: t => if lt b a then let (r, s) := descRun lt b t; (b :: r, s) else ([], b :: t)

/-- the ascending run that continues after `a` -/
def ascRun (lt : α → α → Bool) : α → List α → List α × List α
  | _, [] => ([], [])
  | a, b :: t => if lt b a then ([], b :: t) else let (r, s) := ascRun lt b t; (b :: r, s)

/-- CPython's `list.sort()` for fewer than 64 elements. -/
def pysort (lt : α → α → Bool) : List α → List α
  | [] => []
  | [a] => [a]
  | a :: b :: t =>
    if lt b a then
      let (r, s) := descRun lt a (b :: t)
      s.foldl (binInsert lt) (a :: r).reverse
    else
      let (r, s) := ascRun lt a (b :: t)
      s.foldl (binInsert lt) (a :: r)

/-- `lt` is a strict weak order on the elements with property `P`. -/
structure StrictWeak (lt : α → α → Bool) (P : α → Prop) : Prop where
  irrefl : ∀ a, P a → lt a a = false
  asymm : ∀ a b, P a → P b → lt a b = true → lt b a = false
  neg_trans : ∀ a b c, P a → P b → P c → lt a c = true → lt a b = true ∨ lt b c = true

/-- "not greater" -/
def leOf (lt : α → α → Bool) (a b : α) : Bool := !lt b a

namespace StrictWeak

variable {lt : α → α → Bool} {P : α → Prop}

theorem trans (h : StrictWeak lt P) {a b c : α} (ha : P a) (hb : P b) (hc : P c) (h1 : lt a b = true) (h2 : lt b c = true) :
    lt a c = true := by
  rcases h.neg_trans a c b ha hc hb h1 with h3 | h3
  · exact h3
  · rw [h.asymm _ _ hb hc h2] at h3; cases h3

theorem le_trans (h : StrictWeak lt P) {a b c : α} (ha : P a) (hb : P b) (hc : P c) (h1 : leOf lt a b = true) (h2 : leOf lt b c = true) :
    leOf lt a c = true := by
  simp only [leOf, Bool.not_eq_true'] at *
  cases hca : lt c a with
  | false => rfl
  | true =>
    rcases h.neg_trans c b a hc hb ha hca with h3 | h3
    · rw [h2] at h3; cases h3
    · rw [h1] at h3; cases h3

theorem le_total (h : StrictWeak lt P) {a b : α} (ha : P a) (hb : P b) : leOf lt a b = true ∨ leOf lt b a = true := by
  simp only [leOf, Bool.not_eq_true']
  cases hab : lt a b with
  | false => exact Or.inr rfl
  | true => exact Or.inl (h.asymm _ _ ha hb hab)

end StrictWeak

theorem insertBy_pairwise_on {le : α → α → Bool} {P : α → Prop} (trans : ∀ a b c, P a → P b → P c → le a b → le b c → le a c)
    (total : ∀ a b, P a → P b → le a b = true ∨ le b a = true) (a : α) (ha : P a) (l : List α) (hl : ∀ x ∈ l, P x)
    (h : l.Pairwise (fun x y => le x y = true)) : (insertBy le a l).Pairwise (fun x y => le x y = true) := by
  induction l with
  | nil => simp [insertBy]
  | cons b t ih =>
    have hb := hl b (by simp)
    have ht : ∀ x ∈ t, P x := fun x hx => hl x (by simp [hx])
    unfold insertBy
    split
    · rename_i hab
      refine List.pairwise_cons.mpr ⟨?_, h⟩
      intro c hc
      rcases List.mem_cons.mp hc with rfl | hc'
      · exact hab
      · exact trans _ _ _ ha hb (ht c hc') hab ((List.pairwise_cons.mp h).1 c hc')
    · rename_i hab
      refine List.pairwise_cons.mpr ⟨?_, ih ht (List.pairwise_cons.mp h).2⟩
      intro c hc
      rcases List.mem_cons.mp ((insertBy_perm le a t).mem_iff.mp hc) with rfl | hc
      · rcases total c b ha hb with h1 | h1
        · exact absurd h1 hab
        · exact h1
      · exact (List.pairwise_cons.mp h).1 c hc

theorem isort_pairwise_on {le : α → α → Bool} {P : α → Prop} (trans : ∀ a b c, P a → P b → P c → le a b → le b c → le a c)
    (total : ∀ a b, P a → P b → le a b = true ∨ le b a = true) (l : List α) (hl : ∀ x ∈ l, P x) :
    (isort le l).Pairwise (fun x y => le x y = true) := by
  induction l with
  | nil => exact .nil
  | cons a t ih =>
    have ht : ∀ x ∈ t, P x := fun x hx => hl x (by simp [hx])
    exact insertBy_pairwise_on trans total a (hl a (by simp)) _ (fun x hx => ht x ((isort_perm le t).mem_iff.mp hx)) (ih ht)

theorem isort_sorted {lt : α → α → Bool} {P : α → Prop} (h : StrictWeak lt P) (l : List α) (hl : ∀ x ∈ l, P x) :
    (isort (leOf lt) l).Pairwise (fun x y => leOf lt x y = true) :=
  isort_pairwise_on (le := leOf lt) (P := P) (fun _ _ _ ha hb hc => h.le_trans ha hb hc) (fun _ _ ha hb => h.le_total ha hb) l hl

/-- insert after all elements not greater than `x` -/
def insertRight (lt : α → α → Bool) (x : α) : List α → List α
  | [] => [x]
  | b :: t => if lt x b then x :: b :: t else b :: insertRight lt x t

theorem insert_comm {lt : α → α → Bool} {P : α → Prop} (h : StrictWeak lt P) (a x : α) (ha : P a) (hx : P x) (S : List α)
    (hS : ∀ y ∈ S, P y) : insertBy (leOf lt) a (insertRight lt x S) = insertRight lt x (insertBy (leOf lt) a S) := by
  induction S with
  | nil =>
    simp only [insertRight, insertBy, leOf]
    by_cases hxa : lt x a = true <;> simp [hxa]
  | cons b t ih =>
    have hb := hS b (by simp)
    have ih := ih (fun y hy => hS y (by simp [hy]))
    simp only [insertRight, insertBy]
    by_cases hxb : lt x b = true
    · rw [if_pos hxb]
      by_cases hab : leOf lt a b = true
      · rw [if_pos hab]
        simp only [insertBy, insertRight, if_pos hab, if_pos hxb]
        cases hxa : lt x a <;> simp [leOf, hxa]
      · rw [if_neg hab]
        simp only [insertBy, insertRight, if_neg hab, if_pos hxb]
        simp only [leOf, Bool.not_eq_true, Bool.not_eq_false'] at hab
        -- lt b a, lt x b
        simp [leOf, h.trans hx hb ha hxb hab]
    · rw [if_neg hxb]
      by_cases hab : leOf lt a b = true
      · rw [if_pos hab]
        simp only [insertBy, insertRight, if_pos hab, if_neg hxb]
        have : lt x a = false := by
          cases hxa : lt x a with
          | false => rfl
          | true =>
            rcases h.neg_trans x b a hx hb ha hxa with h1 | h1
            · exact absurd h1 hxb
            · simp [leOf, h1] at hab
        simp [this]
      · rw [if_neg hab]
        simp only [insertBy, insertRight, if_neg hab, if_neg hxb, ih]

theorem isort_append_singleton {lt : α → α → Bool} {P : α → Prop} (h : StrictWeak lt P) (x : α) (hx : P x) (l : List α)
    (hl : ∀ y ∈ l, P y) : isort (leOf lt) (l ++ [x]) = insertRight lt x (isort (leOf lt) l) := by
  induction l with
  | nil => rfl
  | cons a t ih =>
    have ht : ∀ y ∈ t, P y := fun y hy => hl y (by simp [hy])
    rw [List.cons_append, isort, isort, ih ht]
    exact insert_comm h a x (hl a (by simp)) hx _ (fun y hy => ht y ((isort_perm _ t).mem_iff.mp hy))

/-- the partition point of a sorted list -/
theorem insertRight_eq {lt : α → α → Bool} (x : α) : ∀ (S : List α) (p : Nat), p ≤ S.length →
    (∀ (i : Nat) (y : α), i < p → S[i]? = some y → lt x y = false) → (∀ (y : α), S[p]? = some y → lt x y = true) →
    insertRight lt x S = S.take p ++ x :: S.drop p := by
  intro S
  induction S with
  | nil => intro p hp _ _; simp [insertRight]
  | cons b t ih =>
    intro p hp h1 h2
    cases p with
    | zero =>
      have := h2 b rfl
      simp [insertRight, this]
    | succ p =>
      have hb := h1 0 b (Nat.succ_pos _) rfl
      simp only [insertRight, hb, Bool.false_eq_true, if_false, List.take_succ_cons, List.drop_succ_cons, List.cons_append]
      rw [ih p (by simpa using hp) (fun i y hi hy => h1 (i + 1) y (by omega) (by simpa using hy)) (fun y hy => h2 y (by simpa using hy))]

theorem bisect_spec {lt : α → α → Bool} {P : α → Prop} (h : StrictWeak lt P) (x : α) (hx : P x) (S : List α) (hS : ∀ y ∈ S, P y)
    (hs : S.Pairwise (fun x y => leOf lt x y = true)) : ∀ (n l r : Nat), r - l ≤ n → l ≤ r → r ≤ S.length →
    (∀ (i : Nat) (y : α), i < l → S[i]? = some y → lt x y = false) → (∀ (i : Nat) (y : α), r ≤ i → S[i]? = some y → lt x y = true) →
    bisect lt x S l r ≤ S.length ∧ (∀ (i : Nat) (y : α), i < bisect lt x S l r → S[i]? = some y → lt x y = false) ∧
    (∀ (i : Nat) (y : α), bisect lt x S l r ≤ i → S[i]? = some y → lt x y = true) := by
  have hmono : ∀ (i j : Nat) (y z : α), i < j → S[i]? = some y → S[j]? = some z → leOf lt y z = true := by
    intro i j y z hij hy hz
    obtain ⟨hi, rfl⟩ := List.getElem?_eq_some_iff.mp hy
    obtain ⟨hj, rfl⟩ := List.getElem?_eq_some_iff.mp hz
    exact List.pairwise_iff_getElem.mp hs i j hi hj hij
  have hP : ∀ (i : Nat) (y : α), S[i]? = some y → P y := fun i y hy => hS y (List.mem_of_getElem? hy)
  intro n
  induction n with
  | zero =>
    intro l r hn hlr hr h1 h2
    have : l = r := by omega
    subst this
    unfold bisect
    rw [dif_neg (by omega)]
    exact ⟨hr, h1, h2⟩
  | succ n ih =>
    intro l r hn hlr hr h1 h2
    unfold bisect
    by_cases hlt : l < r
    · rw [dif_pos hlt]
      have hp : l + (r - l) / 2 < S.length := by omega
      simp only [List.getElem?_eq_getElem hp]
      have hpe : S[l + (r - l) / 2]? = some S[l + (r - l) / 2] := List.getElem?_eq_getElem hp
      by_cases hc : lt x S[l + (r - l) / 2] = true
      · rw [if_pos hc]
        apply ih l (l + (r - l) / 2) (by omega) (by omega) (by omega) h1
        intro i y hi hy
        rcases Nat.eq_or_lt_of_le hi with e | hi
        · subst e; rw [hpe] at hy; injection hy with hy; rw [← hy]; exact hc
        · have hle := hmono _ _ _ _ hi hpe hy
          simp only [leOf, Bool.not_eq_true'] at hle
          rcases h.neg_trans x y _ hx (hP i y hy) (hP _ _ hpe) hc with h3 | h3
          · exact h3
          · rw [hle] at h3; cases h3
      · rw [if_neg hc]
        apply ih (l + (r - l) / 2 + 1) r (by omega) (by omega) (by omega) _ h2
        intro i y hi hy
        have hc' : lt x S[l + (r - l) / 2] = false := by simpa using hc
        rcases Nat.eq_or_lt_of_le (Nat.lt_succ_iff.mp hi) with e | hi
        · subst e; rw [hpe] at hy; injection hy with hy; rw [← hy]; exact hc'
        · have hle := hmono _ _ _ _ hi hy hpe
          simp only [leOf, Bool.not_eq_true'] at hle
          cases hxy : lt x y with
          | false => rfl
          | true =>
            rcases h.neg_trans x _ y hx (hP _ _ hpe) (hP i y hy) hxy with h3 | h3
            · exact absurd h3 hc
            · rw [hle] at h3; cases h3
    · rw [dif_neg hlt]
      have : l = r := by omega
      subst this
      exact ⟨hr, h1, h2⟩

theorem binInsert_eq {lt : α → α → Bool} {P : α → Prop} (h : StrictWeak lt P) (x : α) (hx : P x) (S : List α) (hS : ∀ y ∈ S, P y)
    (hs : S.Pairwise (fun x y => leOf lt x y = true)) : binInsert lt S x = insertRight lt x S := by
  obtain ⟨h1, h2, h3⟩ := bisect_spec h x hx S hS hs _ 0 S.length (Nat.le_refl _) (Nat.zero_le _) (Nat.le_refl _)
    (fun i _ hi => absurd hi (Nat.not_lt_zero _)) (fun i y hi hy => by
      have := (List.getElem?_eq_some_iff.mp hy).1; omega)
  rw [insertRight_eq x S _ h1 h2 (fun y hy => h3 _ y (Nat.le_refl _) hy)]
  rfl

theorem foldl_binInsert {lt : α → α → Bool} {P : α → Prop} (h : StrictWeak lt P) : ∀ (s l : List α), (∀ y ∈ l ++ s, P y) →
    s.foldl (binInsert lt) (isort (leOf lt) l) = isort (leOf lt) (l ++ s) := by
  intro s
  induction s with
  | nil => intro l _; simp
  | cons x s ih =>
    intro l hl
    have hl' : ∀ y ∈ l, P y := fun y hy => hl y (by simp [hy])
    have hx : P x := hl x (by simp)
    rw [List.foldl_cons, binInsert_eq h x hx _ (fun y hy => hl' y ((isort_perm _ l).mem_iff.mp hy)) (isort_sorted h l hl'),
      ← isort_append_singleton h x hx l hl', ih (l ++ [x]) (by simpa using hl)]
    simp

theorem isort_of_sorted {le : α → α → Bool} : ∀ (l : List α), l.Pairwise (fun x y => le x y = true) → isort le l = l
  | [], _ => rfl
  | a :: t, h => by
    rw [isort, isort_of_sorted t (List.pairwise_cons.mp h).2]
    cases t with
    | nil => rfl
    | cons b t =>
      have := (List.pairwise_cons.mp h).1 b (by simp)
      simp [insertBy, this]

theorem insertBy_last {le : α → α → Bool} (a : α) : ∀ (l : List α), (∀ b ∈ l, le a b = false) → insertBy le a l = l ++ [a]
  | [], _ => rfl
  | b :: t, h => by
    have := h b (by simp)
    simp only [insertBy, this, Bool.false_eq_true, if_false, List.cons_append]
    rw [insertBy_last a t (fun c hc => h c (by simp [hc]))]

theorem isort_of_desc {lt : α → α → Bool} : ∀ (l : List α), l.Pairwise (fun x y => lt y x = true) → isort (leOf lt) l = l.reverse
  | [], _ => rfl
  | a :: t, h => by
    rw [isort, isort_of_desc t (List.pairwise_cons.mp h).2, List.reverse_cons]
    apply insertBy_last
    intro b hb
    have := (List.pairwise_cons.mp h).1 b (by simpa using hb)
    simp [leOf, this]

theorem descRun_spec {lt : α → α → Bool} {P : α → Prop} (h : StrictWeak lt P) : ∀ (t : List α) (a : α), P a → (∀ y ∈ t, P y) →
    (descRun lt a t).1 ++ (descRun lt a t).2 = t ∧ (a :: (descRun lt a t).1).Pairwise (fun x y => lt y x = true) := by
  intro t
  induction t with
  | nil => intro a _ _; simp [descRun]
  | cons b t ih =>
    intro a ha ht
    have hb := ht b (by simp)
    obtain ⟨e1, e2⟩ := ih b hb (fun y hy => ht y (by simp [hy]))
    rw [descRun]
    split
    · rename_i hba
      refine ⟨by simpa using e1, ?_⟩
      refine List.pairwise_cons.mpr ⟨?_, e2⟩
      intro c hc
      rcases List.mem_cons.mp hc with rfl | hc
      · exact hba
      · have hcP : P c := ht c (by
          have : c ∈ (descRun lt b t).1 ++ (descRun lt b t).2 := by simp [hc]
          rw [e1] at this; simp [this])
        exact h.trans hcP hb ha ((List.pairwise_cons.mp e2).1 c hc) hba
    · simp

theorem ascRun_spec {lt : α → α → Bool} {P : α → Prop} (h : StrictWeak lt P) : ∀ (t : List α) (a : α), P a → (∀ y ∈ t, P y) →
    (ascRun lt a t).1 ++ (ascRun lt a t).2 = t ∧ (a :: (ascRun lt a t).1).Pairwise (fun x y => leOf lt x y = true) := by
  intro t
  induction t with
  | nil => intro a _ _; simp [ascRun]
  | cons b t ih =>
    intro a ha ht
    have hb := ht b (by simp)
    obtain ⟨e1, e2⟩ := ih b hb (fun y hy => ht y (by simp [hy]))
    rw [ascRun]
    split
    · simp
    · rename_i hba
      have hba' : leOf lt a b = true := by simpa [leOf] using hba
      refine ⟨by simpa using e1, ?_⟩
      refine List.pairwise_cons.mpr ⟨?_, e2⟩
      intro c hc
      rcases List.mem_cons.mp hc with rfl | hc
      · exact hba'
      · have hcP : P c := ht c (by
          have : c ∈ (ascRun lt b t).1 ++ (ascRun lt b t).2 := by simp [hc]
          rw [e1] at this; simp [this])
        exact h.le_trans ha hb hcP hba' ((List.pairwise_cons.mp e2).1 c hc)

/-- For a strict weak order, CPython's algorithm gives the result of stable insertion sort. -/
theorem pysort_eq_isort {lt : α → α → Bool} {P : α → Prop} (h : StrictWeak lt P) (l : List α) (hl : ∀ y ∈ l, P y) :
    pysort lt l = isort (leOf lt) l := by
  match l with
  | [] => rfl
  | [a] => rfl
  | a :: b :: t =>
    have ha := hl a (by simp)
    have ht : ∀ y ∈ b :: t, P y := fun y hy => hl y (by simp only [List.mem_cons] at *; exact Or.inr hy)
    rw [pysort]
    split
    · obtain ⟨e1, e2⟩ := descRun_spec h (b :: t) a ha ht
      have hP : ∀ y ∈ (a :: (descRun lt a (b :: t)).1) ++ (descRun lt a (b :: t)).2, P y := by
        rw [List.cons_append, e1]; exact hl
      show List.foldl (binInsert lt) (a :: (descRun lt a (b :: t)).1).reverse (descRun lt a (b :: t)).2 = _
      rw [← isort_of_desc _ e2, foldl_binInsert h _ _ hP, List.cons_append, e1]
    · obtain ⟨e1, e2⟩ := ascRun_spec h (b :: t) a ha ht
      have hP : ∀ y ∈ (a :: (ascRun lt a (b :: t)).1) ++ (ascRun lt a (b :: t)).2, P y := by
        rw [List.cons_append, e1]; exact hl
      show List.foldl (binInsert lt) (a :: (ascRun lt a (b :: t)).1) (ascRun lt a (b :: t)).2 = _
      conv => lhs; arg 2; rw [← isort_of_sorted _ e2]
      rw [foldl_binInsert h _ _ hP, List.cons_append, e1]

/-! ### swapping neighbours -/

/-- `r` is obtained from `l` by swapping neighbours that satisfy `R`, any number of times. -/
inductive Swaps (R : α → α → Prop) : List α → List α → Prop where
  | refl (l : List α) : Swaps R l l
  | step {l u v : List α} {a b : α} : Swaps R l (u ++ a :: b :: v) → R a b → Swaps R l (u ++ b :: a :: v)

namespace Swaps

variable {R : α → α → Prop}

theorem trans {a b c : List α} (h1 : Swaps R a b) (h2 : Swaps R b c) : Swaps R a c := by
  induction h2 with
  | refl => exact h1
  | step _ hR ih => exact .step ih hR

theorem cons (x : α) {l r : List α} (h : Swaps R l r) : Swaps R (x :: l) (x :: r) := by
  induction h with
  | refl => exact .refl _
  | step _ hR ih => exact Swaps.step (u := x :: _) ih hR

theorem insertBy {le : α → α → Bool} (hR : ∀ a b, le a b = false → R a b) (a : α) (l : List α) : Swaps R (a :: l) (insertBy le a l) := by
  induction l with
  | nil => exact .refl _
  | cons b t ih =>
    rw [QNET.insertBy]
    split
    · exact .refl _
    · rename_i hab
      refine Swaps.trans ?_ (Swaps.cons b ih)
      exact Swaps.step (u := []) (.refl _) (hR a b (by simpa using hab))

theorem isort {le : α → α → Bool} (hR : ∀ a b, le a b = false → R a b) (l : List α) : Swaps R l (isort le l) := by
  induction l with
  | nil => exact .refl _
  | cons a t ih => exact (Swaps.cons a ih).trans (Swaps.insertBy hR a _)

/-- swapping commuting neighbours does not change a product -/
theorem prod_eq {M : Type _} [Monoid M] (v : α → M) (hv : ∀ a b, R a b → v a * v b = v b * v a) {l r : List α} (h : Swaps R l r) :
    (r.map v).prod = (l.map v).prod := by
  induction h with
  | refl => rfl
  | @step u w a b _ hR ih =>
    rw [← ih]
    simp only [List.map_append, List.map_cons, List.prod_append, List.prod_cons]
    rw [← mul_assoc (v b), ← mul_assoc (v a), hv _ _ hR]

end Swaps

end QNET
