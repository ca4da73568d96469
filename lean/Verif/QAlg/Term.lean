import Verif.QAlg.Thm29
import Verif.Engine.Term
import Mathlib.Data.Prod.Lex
import Mathlib.Order.WellFounded
import Mathlib.Tactic.Linarith

/-!
# Termination of the automatic simplification of sums and products (C57)
-/

namespace QNET.QAlg

open QNET.Perm (Res Err)
open QNET.Engine (Ev Ev2 repl Decreasing)

/-! ### Computations that succeed for every sufficiently large recursion limit -/

theorem ev_bind {α β : Type} {f : ℕ → Res α} {g : ℕ → α → Res β} {a : α} {b : β} (hf : Ev f a) (hg : Ev (fun n => g n a) b) :
    Ev (fun n => f n >>= g n) b := by
  obtain ⟨N, hN⟩ := hf
  obtain ⟨M, hM⟩ := hg
  refine ⟨max N M, fun n hn => ?_⟩
  show f n >>= g n = _
  rw [hN n (by omega)]
  exact hM n (by omega)

theorem ev_const {α : Type} (a : α) : Ev (fun _ => .ok a) a := ⟨0, fun _ _ => rfl⟩

theorem ev_succ {α : Type} {f g : ℕ → Res α} {a : α} (h : ∀ n, f (n + 1) = g n) (hg : Ev g a) : Ev f a := by
  obtain ⟨N, hN⟩ := hg
  refine ⟨N + 1, fun n hn => ?_⟩
  obtain ⟨n, rfl⟩ : ∃ m, n = m + 1 := ⟨n - 1, by omega⟩
  rw [h]
  exact hN n (by omega)

theorem ev_congr {α : Type} {f g : ℕ → Res α} {a : α} (h : ∀ n, f n = g n) (hg : Ev g a) : Ev f a := by
  obtain ⟨N, hN⟩ := hg
  exact ⟨N, fun n hn => by rw [h]; exact hN n hn⟩

theorem ev_mapM {α β : Type} (f : ℕ → α → Res β) (R : α → β → Prop) (l : List α) (h : ∀ x ∈ l, ∃ y, Ev (fun n => f n x) y ∧ R x y) :
    ∃ r, Ev (fun n => l.mapM (f n)) r ∧ List.Forall₂ R l r := by
  induction l with
  | nil => exact ⟨[], ⟨0, fun _ _ => rfl⟩, .nil⟩
  | cons x l ih =>
    obtain ⟨y, ⟨N, hN⟩, hR⟩ := h x (by simp)
    obtain ⟨r, ⟨M, hM⟩, hr⟩ := ih (fun z hz => h z (by simp [hz]))
    refine ⟨y :: r, ⟨max N M, fun n hn => ?_⟩, .cons hR hr⟩
    show (x :: l).mapM (f n) = _
    have e1 : f n x = .ok y := hN n (by omega)
    have e2 : l.mapM (f n) = .ok r := hM n (by omega)
    rw [List.mapM_cons, e1]
    show (l.mapM (f n) >>= fun r => pure (y :: r)) = _
    rw [e2]
    rfl

variable {K : Type}

/-! ### Measures -/

mutual
/-- nesting depth of sums, through scalar multiples -/
def height : QX K → ℕ
  | .plus l => 1 + heightL l
  | .scal _ t => height t
  | _ => 0
/-- maximum over a list -/
def heightL : List (QX K) → ℕ
  | [] => 0
  | x :: l => max (height x) (heightL l)
end

/-- nesting depth of scalar multiples -/
def scalDepth : QX K → ℕ
  | .scal _ t => 1 + scalDepth t
  | _ => 0

theorem height_le {x : QX K} {l : List (QX K)} (h : x ∈ l) : height x ≤ heightL l := by
  induction l with
  | nil => cases h
  | cons y l ih =>
    simp only [heightL]
    rcases List.mem_cons.mp h with rfl | h
    · omega
    · have := ih h; omega

theorem heightL_le {l : List (QX K)} {k : ℕ} (h : ∀ x ∈ l, height x ≤ k) : heightL l ≤ k := by
  induction l with
  | nil => simp [heightL]
  | cons y l ih =>
    simp only [heightL]
    have := h y (by simp)
    have := ih (fun x hx => h x (by simp [hx]))
    omega

mutual
/-- the number of scalar factors that rules for products can pull out -/
def weight : QX K → ℕ
  | .scal _ t => 1 + weight t
  | .plus l => 1 + coreMax l
  | .times l => weightL l
  | _ => 0
/-- the sum over a list -/
def weightL : List (QX K) → ℕ
  | [] => 0
  | x :: l => weight x + weightL l
/-- the maximum over a list of the weight without the outermost scalar factor -/
def coreMax : List (QX K) → ℕ
  | [] => 0
  | .scal _ t :: l => max (weight t) (coreMax l)
  | x :: l => max (weight x) (coreMax l)
end

/-- the weight without the outermost scalar factor -/
def core : QX K → ℕ
  | .scal _ t => weight t
  | x => weight x

theorem coreMax_cons (x : QX K) (l : List (QX K)) : coreMax (x :: l) = max (core x) (coreMax l) := by
  cases x <;> simp [coreMax, core]

theorem core_le_weight (x : QX K) : core x ≤ weight x := by
  cases x <;> simp [core, weight]

theorem core_le {x : QX K} {l : List (QX K)} (h : x ∈ l) : core x ≤ coreMax l := by
  induction l with
  | nil => cases h
  | cons y l ih =>
    rw [coreMax_cons]
    rcases List.mem_cons.mp h with rfl | h
    · omega
    · have := ih h; omega

theorem coreMax_le {l : List (QX K)} {k : ℕ} (h : ∀ x ∈ l, core x ≤ k) : coreMax l ≤ k := by
  induction l with
  | nil => simp [coreMax]
  | cons y l ih =>
    rw [coreMax_cons]
    have := h y (by simp)
    have := ih (fun x hx => h x (by simp [hx]))
    omega

mutual
/-- the products of symbols that occur when the expression is multiplied out (without the commutators, and always with the empty product for sums) -/
def words : QX K → List (List ℕ)
  | .atom a => [[a]]
  | .scal _ t => words t
  | .plus l => [] :: wordsSum l
  | .times l => wordsProd l
  | _ => [[]]
/-- the words of all summands -/
def wordsSum : List (QX K) → List (List ℕ)
  | [] => []
  | x :: l => words x ++ wordsSum l
/-- the concatenations of words of the factors -/
def wordsProd : List (QX K) → List (List ℕ)
  | [] => [[]]
  | x :: l => (words x).flatMap (fun w => (wordsProd l).map (w ++ ·))
end

mutual
theorem words_ne : ∀ x : QX K, words x ≠ []
  | .atom _ => by simp [words]
  | .zero => by simp [words]
  | .one => by simp [words]
  | .scal _ t => by rw [words]; exact words_ne t
  | .plus l => by simp [words]
  | .times l => by rw [words]; exact wordsProd_ne l
  | .comm _ _ => by simp [words]
theorem wordsProd_ne : ∀ l : List (QX K), wordsProd l ≠ []
  | [] => by simp [wordsProd]
  | x :: l => by
    have h1 := words_ne x
    have h2 := wordsProd_ne l
    obtain ⟨w, hw⟩ := List.exists_mem_of_ne_nil _ h1
    obtain ⟨v, hv⟩ := List.exists_mem_of_ne_nil _ h2
    rw [wordsProd]
    intro h
    have : w ++ v ∈ (words x).flatMap (fun w => (wordsProd l).map (w ++ ·)) := List.mem_flatMap.mpr ⟨w, hw, List.mem_map.mpr ⟨v, hv, rfl⟩⟩
    rw [h] at this
    cases this
end

theorem mem_wordsSum {w : List ℕ} {l : List (QX K)} : w ∈ wordsSum l ↔ ∃ x ∈ l, w ∈ words x := by
  induction l with
  | nil => simp [wordsSum]
  | cons x l ih => simp [wordsSum, ih]

theorem mem_wordsProd_cons {w : List ℕ} {x : QX K} {l : List (QX K)} : w ∈ wordsProd (x :: l) ↔ ∃ u ∈ words x, ∃ v ∈ wordsProd l, w = u ++ v := by
  rw [wordsProd]
  simp only [List.mem_flatMap, List.mem_map, eq_comm]

theorem mem_wordsProd_append {w : List ℕ} {l m : List (QX K)} : w ∈ wordsProd (l ++ m) ↔ ∃ u ∈ wordsProd l, ∃ v ∈ wordsProd m, w = u ++ v := by
  induction l generalizing w with
  | nil => simp [wordsProd]
  | cons x l ih =>
    rw [List.cons_append, mem_wordsProd_cons]
    constructor
    · rintro ⟨u, hu, v, hv, rfl⟩
      obtain ⟨v1, h1, v2, h2, rfl⟩ := ih.mp hv
      exact ⟨u ++ v1, mem_wordsProd_cons.mpr ⟨u, hu, v1, h1, rfl⟩, v2, h2, by simp⟩
    · rintro ⟨u, hu, v, hv, rfl⟩
      obtain ⟨u1, h1, u2, h2, rfl⟩ := mem_wordsProd_cons.mp hu
      exact ⟨u1, h1, u2 ++ v, ih.mpr ⟨u2, h2, v, hv, rfl⟩, by simp⟩

theorem mem_wordsProd_one {w : List ℕ} {x : QX K} : w ∈ wordsProd [x] ↔ w ∈ words x := by
  rw [mem_wordsProd_cons]
  simp [wordsProd]

/-- every word of `x` is contained in a word of `y`, in the same order -/
def Dom (X Y : List (List ℕ)) : Prop := ∀ w ∈ X, ∃ v ∈ Y, w.Sublist v

theorem Dom.refl (X : List (List ℕ)) : Dom X X := fun w h => ⟨w, h, List.Sublist.refl _⟩

theorem Dom.trans {X Y Z : List (List ℕ)} (h1 : Dom X Y) (h2 : Dom Y Z) : Dom X Z := fun w h => by
  obtain ⟨v, hv, hs⟩ := h1 w h
  obtain ⟨u, hu, ht⟩ := h2 v hv
  exact ⟨u, hu, hs.trans ht⟩

theorem dom_nil {Y : List (List ℕ)} (h : Y ≠ []) : Dom [[]] Y := fun w hw => by
  obtain ⟨v, hv⟩ := List.exists_mem_of_ne_nil _ h
  exact ⟨v, hv, by simp at hw; simp [hw]⟩

theorem dom_mem {w : List ℕ} {Y : List (List ℕ)} (h : Y ≠ []) (hw : w = []) : ∃ v ∈ Y, w.Sublist v := by
  obtain ⟨v, hv⟩ := List.exists_mem_of_ne_nil _ h
  exact ⟨v, hv, by simp [hw]⟩

variable [CommRing K] [DecidableEq K]

/-! ### Sums and scalar multiples -/

theorem coeffMap_fst_mem (ops : List (QX K)) : ∀ m : List (QX K × K), ∀ tc ∈ ops.foldl (fun m op => addTerm m (split op).1 (split op).2) m,
    tc.1 ∈ m.map Prod.fst ∨ ∃ op ∈ ops, tc.1 = (split op).1 := by
  have hadd : ∀ (m : List (QX K × K)) (t : QX K) (c : K), ∀ tc ∈ addTerm m t c, tc.1 ∈ m.map Prod.fst ∨ tc.1 = t := by
    intro m t c
    induction m with
    | nil => intro tc h; simp [addTerm] at h; exact Or.inr (by rw [h])
    | cons p m ih =>
      obtain ⟨t', c'⟩ := p
      intro tc h
      unfold addTerm at h
      split at h
      · rcases List.mem_cons.mp h with rfl | h
        · exact Or.inl (by simp)
        · exact Or.inl (by simp; exact Or.inr ⟨_, h⟩)
      · rcases List.mem_cons.mp h with rfl | h
        · exact Or.inl (by simp)
        · rcases ih tc h with h | h
          · exact Or.inl (by simp at h ⊢; exact Or.inr h)
          · exact Or.inr h
  induction ops with
  | nil => intro m tc h; exact Or.inl (List.mem_map.mpr ⟨tc, h, rfl⟩)
  | cons op ops ih =>
    intro m tc h
    rw [List.foldl_cons] at h
    rcases ih _ tc h with h | ⟨o, ho, e⟩
    · obtain ⟨p, hp, e⟩ := List.mem_map.mp h
      rcases hadd _ _ _ p hp with h | h
      · exact Or.inl (e ▸ h)
      · exact Or.inr ⟨op, by simp, by rw [← e, h]⟩
    · exact Or.inr ⟨o, by simp [ho], e⟩

/-- what is known about a result: not deeper, not heavier, and no new words -/
structure Le (r x : QX K) : Prop where
  height : height r ≤ height x
  core : core r ≤ core x
  words : Dom (words r) (words x)

theorem Le.refl (x : QX K) : Le x x := ⟨le_rfl, le_rfl, Dom.refl _⟩

theorem Le.zero (x : QX K) : Le .zero x := ⟨by simp [QAlg.height], by simp [QAlg.core, weight], by rw [QAlg.words]; exact dom_nil (words_ne x); all_goals simp⟩

variable {Γ : Ctx K}

/-- `plusCreate` succeeds if scalar multiples of all terms do -/
theorem plus_ev (hs : ∀ l, (Γ.sortPlus l).Perm l) (k : ℕ) (hP : ∀ t c, height t ≤ k → ∃ r, Ev (fun n => mulScal Γ n c t) r ∧ Le r t)
    (ops : List (QX K)) (hk : ∀ x ∈ ops, height x ≤ k) :
    ∃ r, Ev (fun n => plusCreate Γ n ops) r ∧ height r ≤ k + 1 ∧ core r ≤ 1 + coreMax ops ∧ Dom (words r) ([] :: wordsSum ops) := by
  -- the flattened operands
  have hflat : ∀ x ∈ Engine.assoc flatPlus ops, height x ≤ k ∧ core x ≤ coreMax ops ∧ ∀ w ∈ words x, w ∈ wordsSum ops := by
    intro x hx
    unfold Engine.assoc at hx
    obtain ⟨o, ho, hx⟩ := List.mem_flatMap.mp hx
    have hok := hk o ho
    cases o with
    | plus l =>
      have hx : x ∈ l := by simpa [flatPlus] using hx
      rw [QAlg.height] at hok
      have h1 := height_le hx
      have h2 := core_le hx
      have h3 := core_le ho
      rw [core, weight] at h3
      · refine ⟨by omega, by omega, fun w hw => mem_wordsSum.mpr ⟨_, ho, ?_⟩⟩
        rw [words]
        exact List.mem_cons_of_mem _ (mem_wordsSum.mpr ⟨x, hx, hw⟩)
      · simp
    | _ => all_goals
        simp only [flatPlus, Option.getD_none, List.mem_singleton] at hx
        rw [hx]
        exact ⟨hok, core_le ho, fun w hw => mem_wordsSum.mpr ⟨_, ho, hw⟩⟩
  have hterm : ∀ tc ∈ coeffMap (Γ.sortPlus (Engine.assoc flatPlus ops)), height tc.1 ≤ k ∧ core tc.1 ≤ coreMax ops ∧ ∀ w ∈ words tc.1, w ∈ wordsSum ops := by
    intro tc h
    rcases coeffMap_fst_mem _ [] tc h with h | ⟨o, ho, e⟩
    · simp at h
    · obtain ⟨h1, h2, h3⟩ := hflat o ((hs _).subset ho)
      rw [e]
      cases o with
      | scal c t =>
        simp only [split]
        rw [QAlg.height] at h1
        rw [core] at h2
        rw [words] at h3
        exact ⟨h1, le_trans (core_le_weight t) h2, h3⟩
      | _ => exact ⟨h1, h2, h3⟩
  obtain ⟨fops, hf, hr⟩ := ev_mapM (fun n tc => mulScal Γ n tc.2 tc.1) (fun (tc : QX K × K) r => Le r tc.1)
    (coeffMap (Γ.sortPlus (Engine.assoc flatPlus ops))) (fun tc h => hP tc.1 tc.2 (hterm tc h).1)
  have hres : ∀ x ∈ fops, height x ≤ k ∧ core x ≤ coreMax ops ∧ Dom (words x) (wordsSum ops) := by
    intro x hx
    obtain ⟨i, hi, rfl⟩ := List.getElem_of_mem hx
    have hi' : i < (coeffMap (Γ.sortPlus (Engine.assoc flatPlus ops))).length := by rw [hr.length_eq]; exact hi
    have hle := (List.forall₂_iff_get.mp hr).2 i hi' hi
    obtain ⟨h1, h2, h3⟩ := hterm _ (List.getElem_mem hi')
    exact ⟨le_trans hle.height h1, le_trans hle.core h2, hle.words.trans (fun w hw => ⟨w, h3 w hw, List.Sublist.refl _⟩)⟩
  refine ⟨wrapPlus (fops.filter (fun op => !decide (op = .zero))), ?_, ?_⟩
  · refine ev_succ (fun n => rfl) ?_
    show Ev (fun n => plusStep Γ.sortPlus (mulScal Γ n) ops) _
    unfold plusStep
    exact ev_bind hf (ev_const _)
  · have hres' : ∀ x ∈ fops.filter (fun op => !decide (op = .zero)), height x ≤ k ∧ core x ≤ coreMax ops ∧ Dom (words x) (wordsSum ops) :=
      fun x hx => hres x (List.mem_filter.mp hx).1
    generalize fops.filter (fun op => !decide (op = .zero)) = l at hres'
    match l, hres' with
    | [], _ =>
      refine ⟨by simp [wrapPlus, QAlg.height], by simp [wrapPlus, core, weight], ?_⟩
      intro w hw
      simp [wrapPlus, words] at hw
      exact ⟨[], by simp, by simp [hw]⟩
    | [x], h =>
      obtain ⟨h1, h2, h3⟩ := h x (by simp)
      refine ⟨by simp only [wrapPlus]; omega, by simp only [wrapPlus]; omega, ?_⟩
      intro w hw
      obtain ⟨v, hv, hs⟩ := h3 w hw
      exact ⟨v, by simp [hv], hs⟩
    | x :: y :: l, h =>
      simp only [wrapPlus]
      refine ⟨?_, ?_, ?_⟩
      · rw [QAlg.height]
        have := heightL_le (fun z hz => (h z hz).1)
        omega
      · rw [core, weight]
        · have := coreMax_le (fun z hz => (h z hz).2.1)
          omega
        · simp
      · intro w hw
        rw [words] at hw
        rcases List.mem_cons.mp hw with rfl | hw
        · exact ⟨[], by simp, by simp⟩
        · obtain ⟨z, hz, hw⟩ := mem_wordsSum.mp hw
          obtain ⟨v, hv, hs⟩ := (h z hz).2.2 w hw
          exact ⟨v, by simp [hv], hs⟩

/-- scalar multiples -/
theorem mulScal_ev (hs : ∀ l, (Γ.sortPlus l).Perm l) : ∀ (k : ℕ) (t : QX K) (c : K), height t ≤ k → ∃ r, Ev (fun n => mulScal Γ n c t) r ∧ Le r t := by
  intro k
  induction k using Nat.strong_induction_on with
  | _ k ih =>
  have main : ∀ (d : ℕ) (t : QX K) (c : K), scalDepth t ≤ d → height t ≤ k → ∃ r, Ev (fun n => mulScal Γ n c t) r ∧ Le r t := by
    intro d
    induction d with
    | zero => ?_
    | succ d ihd => ?_
    all_goals
      intro t c hd ht
      by_cases h1 : c = 1
      · refine ⟨t, ev_succ (g := fun _ => .ok t) (fun n => ?_) (ev_const _), Le.refl _⟩
        rw [mulScal, mulScalStep.eq_def, if_pos h1]
      by_cases h0 : c = 0
      · refine ⟨.zero, ev_succ (g := fun _ => .ok .zero) (fun n => ?_) (ev_const _), Le.zero _⟩
        rw [mulScal, mulScalStep.eq_def, if_neg h1, if_pos h0]
      have hdef : (∀ n, mulScal Γ (n + 1) c t = .ok (.scal c t)) → (∀ v A, t ≠ .scal v A) → ∃ r, Ev (fun n => mulScal Γ n c t) r ∧ Le r t := by
        intro h hns
        refine ⟨.scal c t, ev_succ (g := fun _ => .ok (.scal c t)) (fun n => h n) (ev_const _), ⟨by rw [QAlg.height], ?_, by rw [words]; exact Dom.refl _⟩⟩
        cases t with
        | scal v A => exact absurd rfl (hns v A)
        | _ => simp [core]
      cases t with
      | zero =>
        refine ⟨.zero, ev_succ (g := fun _ => .ok .zero) (fun n => ?_) (ev_const _), Le.refl _⟩
        rw [mulScal, mulScalStep.eq_def, if_neg h1, if_neg h0] <;> rfl
      | plus l =>
        by_cases hm : c = -1
        · have hl : ∀ x ∈ l, height x ≤ k - 1 := by
            intro x hx
            have := height_le hx
            rw [QAlg.height] at ht
            omega
          have hk : k - 1 < k := by rw [QAlg.height] at ht; omega
          obtain ⟨r, hr, hR⟩ := ev_mapM (fun n x => mulScal Γ n (-1) x) (fun x r => Le r x) l (fun x hx => ih (k - 1) hk x (-1) (hl x hx))
          have hmem : ∀ y ∈ r, ∃ x ∈ l, Le y x := by
            intro y hy
            obtain ⟨i, hi, rfl⟩ := List.getElem_of_mem hy
            have hi' : i < l.length := by rw [hR.length_eq]; exact hi
            exact ⟨l[i], List.getElem_mem hi', (List.forall₂_iff_get.mp hR).2 i hi' hi⟩
          obtain ⟨s, hs', hs1, hs2, hs3⟩ := plus_ev hs (heightL l) (fun t c h => ih (k - 1) hk t c (by
              rw [QAlg.height] at ht; omega)) r (fun y hy => by
              obtain ⟨x, hx, hle⟩ := hmem y hy
              exact le_trans hle.height (height_le hx))
          refine ⟨s, ev_succ (fun n => ?_) (ev_bind hr hs'), ⟨?_, ?_, ?_⟩⟩
          · rw [mulScal, mulScalStep.eq_def, if_neg h1, if_neg h0]
            show (if c = -1 then _ else _) = _
            rw [if_pos hm]
          · rw [QAlg.height]; omega
          · refine le_trans hs2 ?_
            rw [core, weight]
            · have := coreMax_le (l := r) (k := coreMax l) (fun y hy => by
                obtain ⟨x, hx, hle⟩ := hmem y hy
                exact le_trans hle.core (core_le hx))
              omega
            · simp
          · refine hs3.trans ?_
            rw [words]
            intro w hw
            rcases List.mem_cons.mp hw with rfl | hw
            · exact ⟨[], by simp, by simp⟩
            · obtain ⟨y, hy, hw⟩ := mem_wordsSum.mp hw
              obtain ⟨x, hx, hle⟩ := hmem y hy
              obtain ⟨v, hv, hsub⟩ := hle.words w hw
              exact ⟨v, List.mem_cons_of_mem _ (mem_wordsSum.mpr ⟨x, hx, hv⟩), hsub⟩
        · refine hdef (fun n => ?_) (by simp)
          rw [mulScal, mulScalStep.eq_def, if_neg h1, if_neg h0]
          show (if c = -1 then _ else _) = _
          rw [if_neg hm]
      | scal v A =>
        first
        | (exact absurd hd (by rw [scalDepth]; omega))
        | (rw [scalDepth] at hd
           rw [QAlg.height] at ht
           obtain ⟨r, hr, hle⟩ := ihd A (c * v) (by omega) ht
           refine ⟨r, ev_succ (fun n => ?_) hr, ⟨by rw [QAlg.height]; exact hle.height, ?_, by rw [words]; exact hle.words⟩⟩
           · rw [mulScal, mulScalStep.eq_def, if_neg h1, if_neg h0] <;> rfl
           · exact le_trans hle.core (by rw [core.eq_def (QX.scal v A)]; exact core_le_weight A))
      | atom a =>
        refine hdef (fun n => ?_) (by simp)
        rw [mulScal, mulScalStep.eq_def, if_neg h1, if_neg h0] <;> rfl
      | one =>
        refine hdef (fun n => ?_) (by simp)
        rw [mulScal, mulScalStep.eq_def, if_neg h1, if_neg h0] <;> rfl
      | times l =>
        refine hdef (fun n => ?_) (by simp)
        rw [mulScal, mulScalStep.eq_def, if_neg h1, if_neg h0] <;> rfl
      | comm a b =>
        refine hdef (fun n => ?_) (by simp)
        rw [mulScal, mulScalStep.eq_def, if_neg h1, if_neg h0] <;> rfl
  exact fun t c ht => main (scalDepth t) t c le_rfl ht

/-- C57: the automatic simplification of a scalar multiple of any operator terminates without error. -/
theorem C57_scalar_times_terminates (hs : ∀ l, (Γ.sortPlus l).Perm l) (c : K) (t : QX K) : ∃ N r, ∀ n, N ≤ n → mulScal Γ n c t = .ok r := by
  obtain ⟨r, ⟨N, hN⟩, -⟩ := mulScal_ev (Γ := Γ) hs (height t) t c le_rfl
  exact ⟨N, r, hN⟩

/-- C57: the automatic simplification of a sum of any operators terminates without error. -/
theorem C57_plus_terminates (hs : ∀ l, (Γ.sortPlus l).Perm l) (ops : List (QX K)) : ∃ N r, ∀ n, N ≤ n → plusCreate Γ n ops = .ok r := by
  obtain ⟨r, ⟨N, hN⟩, -⟩ := plus_ev (Γ := Γ) hs (heightL ops) (fun t c h => mulScal_ev hs _ t c h) ops (fun x hx => height_le hx)
  exact ⟨N, r, hN⟩

/-! ### Products -/

/-- A measure `μ` of products of symbols that decreases with every rule, and is not increased by removing symbols or by the sorting of operands. -/
structure Terminating {β : Type} [LinearOrder β] (Γ : Ctx K) (μ : List ℕ → β) : Prop where
  sortPlus : ∀ l, (Γ.sortPlus l).Perm l
  sortTimes : ∀ l, (Γ.sortTimes l).Perm l
  /-- removing symbols does not increase the measure -/
  sub : ∀ {w v : List ℕ}, w.Sublist v → μ w ≤ μ v
  /-- a rule decreases the measure, in every context -/
  rule : ∀ a b r, Γ.atomRule a b = some r → ∀ w ∈ words r, ∀ p q, μ (p ++ w ++ q) < μ (p ++ [a, b] ++ q)
  /-- sorting does not increase the measure, in every context -/
  sort : ∀ l, ∀ w ∈ wordsProd (Γ.sortTimes l), ∃ v ∈ wordsProd l, ∀ p q, μ (p ++ w ++ q) ≤ μ (p ++ v ++ q)

section times
variable {β : Type} [LinearOrder β] [OrderBot β] {μ : List ℕ → β}

/-- the maximum of the measure over a list of words -/
def maxμ (μ : List ℕ → β) : List (List ℕ) → β
  | [] => ⊥
  | w :: W => max (μ w) (maxμ μ W)

omit [CommRing K] [DecidableEq K] in
theorem le_maxμ {w : List ℕ} {W : List (List ℕ)} (h : w ∈ W) : μ w ≤ maxμ μ W := by
  induction W with
  | nil => cases h
  | cons v W ih =>
    simp only [maxμ]
    rcases List.mem_cons.mp h with rfl | h
    · exact le_max_left _ _
    · exact le_trans (ih h) (le_max_right _ _)

theorem maxμ_le {W : List (List ℕ)} {b : β} (h : ∀ w ∈ W, μ w ≤ b) : maxμ μ W ≤ b := by
  induction W with
  | nil => exact bot_le
  | cons v W ih => exact max_le (h v (by simp)) (ih (fun w hw => h w (by simp [hw])))

theorem maxμ_lt {W : List (List ℕ)} {b : β} (hW : W ≠ []) (h : ∀ w ∈ W, μ w < b) : maxμ μ W < b := by
  induction W with
  | nil => exact absurd rfl hW
  | cons v W ih =>
    cases W with
    | nil => exact max_lt (h v (by simp)) (lt_of_le_of_lt bot_le (h v (by simp)))
    | cons u W => exact max_lt (h v (by simp)) (ih (by simp) (fun w hw => h w (by simp at hw ⊢; tauto)))

/-- the measure of a list of factors -/
def meas (μ : List ℕ → β) (l : List (QX K)) : β ×ₗ (ℕ ×ₗ ℕ) := toLex (maxμ μ (wordsProd l), toLex (weightL l, l.length))

theorem weightL_append (l m : List (QX K)) : weightL (l ++ m) = weightL l + weightL m := by
  induction l with
  | nil => simp [weightL]
  | cons x l ih => rw [List.cons_append, weightL, weightL, ih]; omega

theorem meas_le {l m : List (QX K)} (h : maxμ μ (wordsProd l) < maxμ μ (wordsProd m) ∨ (maxμ μ (wordsProd l) = maxμ μ (wordsProd m) ∧
    (weightL l < weightL m ∨ (weightL l = weightL m ∧ l.length ≤ m.length)))) : meas μ l ≤ meas μ m := by
  unfold meas
  rw [Prod.Lex.toLex_le_toLex]
  rcases h with h | ⟨h, h'⟩
  · exact Or.inl h
  · refine Or.inr ⟨h, ?_⟩
    rw [Prod.Lex.toLex_le_toLex]
    exact h'

theorem meas_lt {l m : List (QX K)} (h : maxμ μ (wordsProd l) < maxμ μ (wordsProd m) ∨ (maxμ μ (wordsProd l) = maxμ μ (wordsProd m) ∧
    (weightL l < weightL m ∨ (weightL l = weightL m ∧ l.length < m.length)))) : meas μ l < meas μ m := by
  unfold meas
  rw [Prod.Lex.toLex_lt_toLex]
  rcases h with h | ⟨h, h'⟩
  · exact Or.inl h
  · refine Or.inr ⟨h, ?_⟩
    rw [Prod.Lex.toLex_lt_toLex]
    exact h'

theorem le_meas {l m : List (QX K)} (h : meas μ l ≤ meas μ m) : maxμ μ (wordsProd l) < maxμ μ (wordsProd m) ∨ (maxμ μ (wordsProd l) = maxμ μ (wordsProd m) ∧
    (weightL l < weightL m ∨ (weightL l = weightL m ∧ l.length ≤ m.length))) := by
  unfold meas at h
  rw [Prod.Lex.toLex_le_toLex] at h
  rcases h with h | ⟨h, h'⟩
  · exact Or.inl h
  · refine Or.inr ⟨h, ?_⟩
    rwa [Prod.Lex.toLex_le_toLex] at h'

/-- componentwise comparison -/
theorem meas_le' {l m : List (QX K)} (h1 : maxμ μ (wordsProd l) ≤ maxμ μ (wordsProd m)) (h2 : weightL l ≤ weightL m) (h3 : weightL l < weightL m ∨ l.length ≤ m.length) :
    meas μ l ≤ meas μ m := by
  refine meas_le ?_
  rcases lt_or_eq_of_le h1 with h | h
  · exact Or.inl h
  · refine Or.inr ⟨h, ?_⟩
    rcases lt_or_eq_of_le h2 with h' | h'
    · exact Or.inl h'
    · refine Or.inr ⟨h', ?_⟩
      rcases h3 with h3 | h3
      · omega
      · exact h3

theorem meas_lt' {l m : List (QX K)} (h1 : maxμ μ (wordsProd l) ≤ maxμ μ (wordsProd m)) (h2 : weightL l ≤ weightL m) (h3 : weightL l < weightL m ∨ l.length < m.length) :
    meas μ l < meas μ m := by
  refine meas_lt ?_
  rcases lt_or_eq_of_le h1 with h | h
  · exact Or.inl h
  · refine Or.inr ⟨h, ?_⟩
    rcases lt_or_eq_of_le h2 with h' | h'
    · exact Or.inl h'
    · refine Or.inr ⟨h', ?_⟩
      rcases h3 with h3 | h3
      · omega
      · exact h3

theorem dom_ctx {X Y : List (QX K)} (h : Dom (wordsProd X) (wordsProd Y)) (p q : List (QX K)) :
    Dom (wordsProd (p ++ X ++ q)) (wordsProd (p ++ Y ++ q)) := by
  intro w hw
  obtain ⟨u, hu, w3, h3, rfl⟩ := mem_wordsProd_append.mp hw
  obtain ⟨w1, h1, w2, h2, rfl⟩ := mem_wordsProd_append.mp hu
  obtain ⟨v, hv, hs⟩ := h w2 h2
  exact ⟨w1 ++ v ++ w3, mem_wordsProd_append.mpr ⟨_, mem_wordsProd_append.mpr ⟨w1, h1, v, hv, rfl⟩, w3, h3, rfl⟩,
    ((List.Sublist.refl w1).append hs).append (List.Sublist.refl w3)⟩

theorem sublist_dom {l m : List (QX K)} (h : l.Sublist m) : Dom (wordsProd l) (wordsProd m) := by
  induction h with
  | slnil => exact Dom.refl _
  | cons a h ih =>
    intro w hw
    obtain ⟨v, hv, hs⟩ := ih w hw
    obtain ⟨u, hu⟩ := List.exists_mem_of_ne_nil _ (words_ne a)
    exact ⟨u ++ v, mem_wordsProd_cons.mpr ⟨u, hu, v, hv, rfl⟩, hs.trans (List.sublist_append_right _ _)⟩
  | cons_cons a h ih =>
    intro w hw
    obtain ⟨u, hu, v, hv, rfl⟩ := mem_wordsProd_cons.mp hw
    obtain ⟨v', hv', hs⟩ := ih v hv
    exact ⟨u ++ v', mem_wordsProd_cons.mpr ⟨u, hu, v', hv', rfl⟩, (List.Sublist.refl u).append hs⟩

theorem sublist_weight {l m : List (QX K)} (h : l.Sublist m) : weightL l ≤ weightL m := by
  induction h with
  | slnil => exact le_rfl
  | cons a h ih => rw [weightL]; omega
  | cons_cons a h ih => rw [weightL, weightL]; omega

theorem dom_max (hT : Terminating Γ μ) {X Y : List (List ℕ)} (h : Dom X Y) : maxμ μ X ≤ maxμ μ Y :=
  maxμ_le (fun w hw => by
    obtain ⟨v, hv, hs⟩ := h w hw
    exact le_trans (hT.sub hs) (le_maxμ hv))

theorem sublist_meas (hT : Terminating Γ μ) {l m : List (QX K)} (h : l.Sublist m) (p q : List (QX K)) : meas μ (p ++ l ++ q) ≤ meas μ (p ++ m ++ q) := by
  have h' : (p ++ l ++ q).Sublist (p ++ m ++ q) := ((List.Sublist.refl p).append h).append (List.Sublist.refl q)
  exact meas_le' (dom_max hT (sublist_dom h')) (sublist_weight h') (Or.inr h'.length_le)

/-- what a product stands for as a list of factors: nothing for the identity, its factors for a product -/
abbrev replT (r : QX K) : List (QX K) := repl (fun x => decide (x = .one)) flatTimes r

theorem replT_words (r : QX K) (w : List ℕ) : w ∈ wordsProd (replT r) ↔ w ∈ words r := by
  unfold replT repl
  by_cases h : r = .one
  · subst h; simp [wordsProd, words]
  · rw [if_neg (by simpa using h)]
    cases r with
    | times l => simp [flatTimes, words]
    | _ => simp only [flatTimes, Option.getD_none, mem_wordsProd_one]

theorem replT_weight (r : QX K) : weightL (replT r) = weight r := by
  unfold replT repl
  by_cases h : r = .one
  · subst h; simp [weightL, weight]
  · rw [if_neg (by simpa using h)]
    cases r with
    | times l => simp [flatTimes, weight]
    | _ => simp [flatTimes, weightL]

theorem replT_length (r : QX K) : (replT r).length ≤ 1 ∨ ∃ l, r = .times l := by
  unfold replT repl
  by_cases h : r = .one
  · left; subst h; simp
  · rw [if_neg (by simpa using h)]
    cases r with
    | times l => exact Or.inr ⟨l, rfl⟩
    | _ => left; simp [flatTimes]

theorem assoc_words (ops : List (QX K)) (w : List ℕ) : w ∈ wordsProd (Engine.assoc flatTimes ops) ↔ w ∈ wordsProd ops := by
  unfold Engine.assoc
  induction ops generalizing w with
  | nil => rfl
  | cons x l ih =>
    rw [List.flatMap_cons, mem_wordsProd_append, mem_wordsProd_cons]
    have hx : ∀ w, w ∈ wordsProd ((flatTimes x).getD [x]) ↔ w ∈ words x := by
      intro w
      cases x with
      | times l => simp [flatTimes, words]
      | _ => simp only [flatTimes, Option.getD_none, mem_wordsProd_one]
    constructor
    · rintro ⟨u, hu, v, hv, rfl⟩; exact ⟨u, (hx u).mp hu, v, (ih v).mp hv, rfl⟩
    · rintro ⟨u, hu, v, hv, rfl⟩; exact ⟨u, (hx u).mpr hu, v, (ih v).mpr hv, rfl⟩

theorem assoc_weight (ops : List (QX K)) : weightL (Engine.assoc flatTimes ops) = weightL ops := by
  unfold Engine.assoc
  induction ops with
  | nil => rfl
  | cons x l ih =>
    rw [List.flatMap_cons, weightL_append, ih, weightL]
    congr 1
    cases x with
    | times l => simp [flatTimes, weight]
    | _ => simp [flatTimes, weightL]

theorem dom_of_iff {X Y : List (List ℕ)} (h : ∀ w, w ∈ X ↔ w ∈ Y) : Dom X Y := fun w hw => ⟨w, (h w).mp hw, List.Sublist.refl _⟩

theorem max_eq_of_iff (hT : Terminating Γ μ) {X Y : List (List ℕ)} (h : ∀ w, w ∈ X ↔ w ∈ Y) : maxμ μ X = maxμ μ Y :=
  le_antisymm (dom_max hT (dom_of_iff h)) (dom_max hT (dom_of_iff (fun w => (h w).symm)))

theorem words_ctx {X Y : List (QX K)} (h : ∀ w, w ∈ wordsProd X ↔ w ∈ wordsProd Y) (p q : List (QX K)) (w : List ℕ) :
    w ∈ wordsProd (p ++ X ++ q) ↔ w ∈ wordsProd (p ++ Y ++ q) := by
  simp only [mem_wordsProd_append, h]

/-- comparison of lists of factors without their lengths -/
def LeMW (μ : List ℕ → β) (l m : List (QX K)) : Prop := maxμ μ (wordsProd l) < maxμ μ (wordsProd m) ∨
  (maxμ μ (wordsProd l) = maxμ μ (wordsProd m) ∧ weightL l ≤ weightL m)

theorem LeMW.of_le {l m : List (QX K)} (h : meas μ l ≤ meas μ m) : LeMW μ l m := by
  rcases le_meas h with h | ⟨h, h'⟩
  · exact Or.inl h
  · exact Or.inr ⟨h, by omega⟩

theorem LeMW.trans {l m k : List (QX K)} (h1 : LeMW μ l m) (h2 : LeMW μ m k) : LeMW μ l k := by
  rcases h1 with h1 | ⟨h1, h1'⟩ <;> rcases h2 with h2 | ⟨h2, h2'⟩
  · exact Or.inl (h1.trans h2)
  · exact Or.inl (h2 ▸ h1)
  · exact Or.inl (h1 ▸ h2)
  · exact Or.inr ⟨h1.trans h2, h1'.trans h2'⟩

/-- a scalar multiple of a result is smaller than the two factors, if one of them had a scalar coefficient -/
theorem scal_dec (hT : Terminating Γ μ) {u : K} {x y A B r t : QX K} (hpair : ∀ w, w ∈ wordsProd [x, y] ↔ w ∈ wordsProd [A, B])
    (hw : weightL [x, y] = 1 + weightL [A, B])
    (ht : ∀ p q, LeMW μ (p ++ [t] ++ q) (p ++ Engine.assoc flatTimes [A, B] ++ q)) (hr : Le r t) (p q : List (QX K)) :
    meas μ (p ++ replT r ++ q) < meas μ (p ++ [x, y] ++ q) := by
  have h1 : maxμ μ (wordsProd (p ++ replT r ++ q)) ≤ maxμ μ (wordsProd (p ++ [t] ++ q)) :=
    dom_max hT (dom_ctx (fun w hw => by
      obtain ⟨v, hv, hs⟩ := hr.words w ((replT_words r w).mp hw)
      exact ⟨v, mem_wordsProd_one.mpr hv, hs⟩) p q)
  have h2 : maxμ μ (wordsProd (p ++ Engine.assoc flatTimes [A, B] ++ q)) = maxμ μ (wordsProd (p ++ [x, y] ++ q)) :=
    max_eq_of_iff hT (words_ctx (fun w => (assoc_words _ w).trans (hpair w).symm) p q)
  rcases ht p q with h3 | ⟨h3, h4⟩
  · exact meas_lt (Or.inl (lt_of_le_of_lt h1 (h2 ▸ h3)))
  · have hle : maxμ μ (wordsProd (p ++ replT r ++ q)) ≤ maxμ μ (wordsProd (p ++ [x, y] ++ q)) := by rw [← h2, ← h3]; exact h1
    have hwt : weight t ≤ weightL [A, B] := by
      simp only [weightL_append, assoc_weight] at h4
      have : weightL [t] = weight t := by simp [weightL]
      omega
    have hc := hr.core
    have hct := core_le_weight t
    -- the weight of r
    have hwr : weight r ≤ 1 + core r ∧ ((∃ l, r = .times l) → weight r = core r) := by
      cases r <;> simp [weight, core]
    refine meas_lt' hle ?_ ?_
    · simp only [weightL_append, replT_weight, hw]
      omega
    · rcases replT_length r with h | h
      · right
        simp only [List.length_append, List.length_cons, List.length_nil]
        omega
      · left
        have := hwr.2 h
        simp only [weightL_append, replT_weight, hw]
        omega

/-- the outcomes of `filter_neutral` -/
theorem filterNeutral_cases (l : List (QX K)) : match Engine.filterNeutral .one (fun x => decide (x = .one)) l with
    | .single x => x = .one ∨ [x].Sublist l
    | .operands m => m.Sublist l := by
  unfold Engine.filterNeutral
  cases l with
  | nil => exact Or.inl rfl
  | cons o l =>
    have hs : ((o :: l).filter (fun x => !decide (x = .one))).Sublist (o :: l) := List.filter_sublist
    match hm : (o :: l).filter (fun x => !decide (x = .one)) with
    | [] => simp only [hm]; exact Or.inr (by simp)
    | [x] => simp only [hm]; rw [hm] at hs; exact Or.inr hs
    | x :: y :: m => simp only [hm]; rw [hm] at hs; exact hs

variable [WellFoundedLT β]

theorem times_ev (hT : Terminating Γ μ) : ∀ (v : β ×ₗ (ℕ ×ₗ ℕ)) (ops : List (QX K)), meas μ (Engine.assoc flatTimes ops) = v →
    ∃ t, Ev (fun n => timesCreate Γ n ops) t ∧ ∀ p q, LeMW μ (p ++ [t] ++ q) (p ++ Engine.assoc flatTimes ops ++ q) := by
  intro v
  induction v using WellFoundedLT.induction with
  | ind v ih =>
  intro ops hv
  -- the rules for two factors
  have hscal : ∀ (u : K) (x y A B : QX K), meas μ [x, y] ≤ v → (∀ w, w ∈ wordsProd [x, y] ↔ w ∈ wordsProd [A, B]) → weightL [x, y] = 1 + weightL [A, B] →
      ∃ r, Ev (fun n => timesCreate Γ n [A, B] >>= mulScal Γ n u) r ∧ ∀ p q, meas μ (p ++ replT r ++ q) < meas μ (p ++ [x, y] ++ q) := by
    intro u x y A B hm hpair hw
    have hlt : meas μ (Engine.assoc flatTimes [A, B]) < meas μ [x, y] := by
      refine meas_lt' ?_ ?_ ?_
      · exact le_of_eq (max_eq_of_iff hT (fun w => (assoc_words _ w).trans (hpair w).symm))
      · rw [assoc_weight]; omega
      · left; rw [assoc_weight]; omega
    obtain ⟨t, ht, hle⟩ := ih _ (lt_of_lt_of_le hlt hm) [A, B] rfl
    obtain ⟨r, hr, hrt⟩ := mulScal_ev hT.sortPlus (height t) t u le_rfl
    exact ⟨r, ev_bind ht hr, scal_dec (u := u) hT hpair hw hle hrt⟩
  have hdec : Decreasing (binRule Γ) (fun x => decide (x = .one)) flatTimes (meas μ) v := by
    have key : ∀ x y, meas μ [x, y] ≤ v → ∃ o, Ev (fun n => binRule Γ n x y) o ∧ ∀ r, o = some r → ∀ p q, meas μ (p ++ replT r ++ q) < meas μ (p ++ [x, y] ++ q) := by
      intro x y hm
      -- a rule that gives zero
      have hzero : (∀ n, binRule Γ (n + 1) x y = .ok (some .zero)) →
          ∃ o, Ev (fun n => binRule Γ n x y) o ∧ ∀ r, o = some r → ∀ p q, meas μ (p ++ replT r ++ q) < meas μ (p ++ [x, y] ++ q) := by
        intro h
        refine ⟨some .zero, ev_succ (g := fun _ => .ok (some .zero)) h (ev_const _), fun r hr p q => ?_⟩
        cases hr
        have e : replT (K := K) .zero = [.zero] := by simp [replT, repl, flatTimes]
        rw [e]
        refine meas_lt' ?_ ?_ ?_
        · refine dom_max hT (dom_ctx ?_ p q)
          intro w hw
          have : w = [] := by simpa [wordsProd, words] using hw
          exact dom_mem (wordsProd_ne _) this
        · simp only [weightL_append, weightL, weight]; omega
        · right; simp
      have hnone : (∀ n, binRule Γ (n + 1) x y = .ok none) →
          ∃ o, Ev (fun n => binRule Γ n x y) o ∧ ∀ r, o = some r → ∀ p q, meas μ (p ++ replT r ++ q) < meas μ (p ++ [x, y] ++ q) := by
        intro h
        exact ⟨none, ev_succ (g := fun _ => .ok none) h (ev_const _), fun r hr => by cases hr⟩
      have hsc : ∀ u A B, (∀ n, binRule Γ (n + 1) x y = timesCreate Γ n [A, B] >>= mulScal Γ n u >>= fun r => .ok (some r)) →
          (∀ w, w ∈ wordsProd [x, y] ↔ w ∈ wordsProd [A, B]) → weightL [x, y] = 1 + weightL [A, B] →
          ∃ o, Ev (fun n => binRule Γ n x y) o ∧ ∀ r, o = some r → ∀ p q, meas μ (p ++ replT r ++ q) < meas μ (p ++ [x, y] ++ q) := by
        intro u A B h h1 h2
        obtain ⟨r, hr, hd⟩ := hscal u x y A B hm h1 h2
        refine ⟨some r, ev_succ h (ev_bind hr (ev_const _)), fun r' hr' => ?_⟩
        cases hr'
        exact hd
      have hl : ∀ u A, x = .scal u A → ∃ o, Ev (fun n => binRule Γ n x y) o ∧ ∀ r, o = some r → ∀ p q, meas μ (p ++ replT r ++ q) < meas μ (p ++ [x, y] ++ q) := by
        rintro u A rfl
        refine hsc u A y (fun n => by rw [binRule, binStep]) (fun w => ?_) ?_
        · simp only [mem_wordsProd_cons, words]
        · simp only [weightL, weight]; omega
      have hr : ∀ u B, y = .scal u B → (∀ n, binRule Γ (n + 1) x y = timesCreate Γ n [x, B] >>= mulScal Γ n u >>= fun r => .ok (some r)) →
          ∃ o, Ev (fun n => binRule Γ n x y) o ∧ ∀ r, o = some r → ∀ p q, meas μ (p ++ replT r ++ q) < meas μ (p ++ [x, y] ++ q) := by
        rintro u B rfl h
        refine hsc u x B h (fun w => ?_) ?_
        · simp only [mem_wordsProd_cons, words]
        · simp only [weightL, weight]; omega
      cases x with
      | scal u A => exact hl u A rfl
      | zero => exact hzero (fun n => by rw [binRule, binStep.eq_def])
      | atom a =>
        cases y with
        | zero => exact hzero (fun n => by rw [binRule, binStep.eq_def])
        | scal u B => exact hr u B rfl (fun n => by rw [binRule, binStep.eq_def])
        | atom b =>
          cases hab : Γ.atomRule a b with
          | none => exact hnone (fun n => by rw [binRule, binStep.eq_def]; show Except.ok (Γ.atomRule a b) = _; rw [hab])
          | some r =>
            refine ⟨some r, ev_succ (g := fun _ => .ok (some r)) (fun n => ?_) (ev_const _), fun r' hr' p q => ?_⟩
            · rw [binRule, binStep.eq_def]; show Except.ok (Γ.atomRule a b) = _; rw [hab]
            · cases hr'
              refine meas_lt (Or.inl (maxμ_lt (wordsProd_ne _) ?_))
              intro w hw
              obtain ⟨u, hu, w3, h3, rfl⟩ := mem_wordsProd_append.mp hw
              obtain ⟨w1, h1, w2, h2, rfl⟩ := mem_wordsProd_append.mp hu
              refine lt_of_lt_of_le (hT.rule a b r hab w2 ((replT_words r w2).mp h2) w1 w3) (le_maxμ ?_)
              refine mem_wordsProd_append.mpr ⟨_, mem_wordsProd_append.mpr ⟨w1, h1, [a, b], ?_, rfl⟩, w3, h3, rfl⟩
              simp [wordsProd, words]
        | _ => exact hnone (fun n => by rw [binRule, binStep.eq_def])
      | _ => all_goals
        cases y with
        | zero => exact hzero (fun n => by rw [binRule, binStep.eq_def])
        | scal u B => exact hr u B rfl (fun n => by rw [binRule, binStep.eq_def])
        | _ => exact hnone (fun n => by rw [binRule, binStep.eq_def])
    refine ⟨fun p l q => ?_, fun x y hm => ?_, fun x y r hm hr p q => ?_⟩
    · have h : l.Sublist (p ++ l ++ q) := by
        rw [List.append_assoc]
        exact (List.sublist_append_left l q).trans (List.sublist_append_right p _)
      have := sublist_meas hT h [] []
      simpa using this
    · obtain ⟨o, h, -⟩ := key x y hm
      exact ⟨o, h⟩
    · obtain ⟨o, ⟨N, hN⟩, hd⟩ := key x y hm
      obtain ⟨M, hM⟩ := hr
      have e1 := hN (max N M) (by omega)
      have e2 := hM (max N M) (by omega)
      simp only at e1 e2
      rw [e1] at e2
      injection e2 with e2
      exact hd r e2 p q
  -- sorting
  have hsort : ∀ p q, meas μ (p ++ Γ.sortTimes (Engine.assoc flatTimes ops) ++ q) ≤ meas μ (p ++ Engine.assoc flatTimes ops ++ q) := by
    intro p q
    have hp := hT.sortTimes (Engine.assoc flatTimes ops)
    refine meas_le' (maxμ_le (fun w hw => ?_)) ?_ ?_
    · obtain ⟨u, hu, w3, h3, rfl⟩ := mem_wordsProd_append.mp hw
      obtain ⟨w1, h1, w2, h2, rfl⟩ := mem_wordsProd_append.mp hu
      obtain ⟨v2, hv2, hle⟩ := hT.sort _ w2 h2
      exact le_trans (hle w1 w3) (le_maxμ (mem_wordsProd_append.mpr ⟨_, mem_wordsProd_append.mpr ⟨w1, h1, v2, hv2, rfl⟩, w3, h3, rfl⟩))
    · simp only [weightL_append]
      have : weightL (Γ.sortTimes (Engine.assoc flatTimes ops)) = weightL (Engine.assoc flatTimes ops) := by
        have e : ∀ l : List (QX K), weightL l = (l.map weight).sum := by
          intro l; induction l with
          | nil => rfl
          | cons x l ih => simp [weightL, ih]
        rw [e, e]
        exact (hp.map _).sum_eq
      omega
    · right
      simp [hp.length_eq]
  -- the identity can be left out
  have hone : ∀ p q : List (QX K), LeMW μ (p ++ [.one] ++ q) (p ++ [] ++ q) := fun p q =>
    Or.inr ⟨max_eq_of_iff hT (words_ctx (fun w => by simp [wordsProd, words]) p q), by simp [weightL_append, weightL, weight]⟩
  -- `filter_neutral`
  have hfilter := filterNeutral_cases (Γ.sortTimes (Engine.assoc flatTimes ops))
  cases hf : Engine.filterNeutral .one (fun x => decide (x = .one)) (Γ.sortTimes (Engine.assoc flatTimes ops)) with
  | single x =>
    refine ⟨x, ev_succ (g := fun _ => .ok x) (fun n => by rw [timesCreate, timesStep, hf]) (ev_const _), fun p q => ?_⟩
    rw [hf] at hfilter
    refine LeMW.trans ?_ (LeMW.of_le (hsort p q))
    rcases hfilter with h | h
    · rw [h]
      exact (hone p q).trans (LeMW.of_le (sublist_meas hT (List.nil_sublist _) p q))
    · exact LeMW.of_le (sublist_meas hT h p q)
  | operands l =>
    rw [hf] at hfilter
    have hl : ∀ p q, meas μ (p ++ l ++ q) ≤ meas μ (p ++ Engine.assoc flatTimes ops ++ q) := fun p q => le_trans (sublist_meas hT hfilter p q) (hsort p q)
    have hlv : meas μ l ≤ v := by have := hl [] []; simpa [hv] using this
    obtain ⟨o, ⟨N, hN⟩, l', hl', hle⟩ := Engine.matchReplaceBinary_ev hdec .one l hlv
    refine ⟨wrapTimes o, ⟨N + 1, fun n hn => ?_⟩, fun p q => LeMW.trans ?_ (LeMW.of_le (le_trans (hle p q) (hl p q)))⟩
    · obtain ⟨n, rfl⟩ : ∃ m, n = m + 1 := ⟨n - 1, by omega⟩
      show timesCreate Γ (n + 1) ops = _
      have e : Engine.matchReplaceBinary (binRule Γ n) .one (fun x => decide (x = .one)) flatTimes n l = .ok o := hN n n (by omega) (by omega)
      rw [timesCreate, timesStep, hf]
      show Except.map wrapTimes _ = _
      rw [e]
      rfl
    · rcases hl' with ⟨rfl, rfl⟩ | rfl
      · exact hone p q
      · cases o with
        | single x => exact Or.inr ⟨rfl, le_rfl⟩
        | operands m =>
          simp only [wrapTimes, Engine.Outcome.list]
          refine Or.inr ⟨max_eq_of_iff hT (words_ctx (fun w => ?_) p q), ?_⟩
          · rw [mem_wordsProd_one, words]
          · simp [weightL_append, weightL, weight]

/-- C57: if some measure of products of symbols decreases with every rule for two symbols (in every context) and is increased neither by removing symbols
nor by sorting the operands, then the automatic simplification of every product terminates without error, for arbitrary operands (sums, products, scalar
multiples, nested to any depth). -/
theorem C57_times_terminates (hT : Terminating Γ μ) (ops : List (QX K)) : ∃ N r, ∀ n, N ≤ n → timesCreate Γ n ops = .ok r := by
  obtain ⟨t, ⟨N, hN⟩, -⟩ := times_ev hT _ ops rfl
  exact ⟨N, t, hN⟩

end times

/-! ### Differences and commutators -/

section comm
variable {β : Type} [LinearOrder β] [OrderBot β] [WellFoundedLT β] {μ : List ℕ → β}


theorem sub_ev (hs : ∀ l, (Γ.sortPlus l).Perm l) (a b : QX K) : ∃ r, Ev (fun n => sub Γ n a b) r := by
  obtain ⟨x, hx, -⟩ := mulScal_ev hs (height b) b (-1) le_rfl
  obtain ⟨y, hy, -⟩ := plus_ev hs (heightL [a, x]) (fun t c h => mulScal_ev hs _ t c h) [a, x] (fun z hz => height_le hz)
  exact ⟨y, ev_bind (g := fun n x => add Γ n a x) hx hy⟩

theorem mul_ev (hT : Terminating Γ μ) (a b : QX K) : ∃ r, Ev (fun n => mul Γ n a b) r := by
  obtain ⟨t, ht, -⟩ := times_ev hT _ [a, b] rfl
  exact ⟨t, ht⟩

theorem comm_ev (hT : Terminating Γ μ) (hlt : ∀ x y, Γ.commLt x y = true → Γ.commLt y x = false) :
    ∀ (d : ℕ) (x y : QX K), 2 * (scalDepth x + scalDepth y) + (if Γ.commLt y x then 1 else 0) ≤ d → ∃ r, Ev (fun n => commCreate Γ n x y) r := by
  intro d
  induction d using Nat.strong_induction_on with
  | _ d ih =>
  intro x y hd
  have hscal : ∀ (c : K) (x' y' : QX K), scalDepth x' + scalDepth y' < scalDepth x + scalDepth y →
      ∃ r, Ev (fun n => commCreate Γ n x' y' >>= mulScal Γ n c) r := by
    intro c x' y' h
    obtain ⟨r, hr⟩ := ih (2 * (scalDepth x' + scalDepth y') + (if Γ.commLt y' x' then 1 else 0)) (by split <;> omega) x' y' le_rfl
    obtain ⟨s, hs, -⟩ := mulScal_ev hT.sortPlus (height r) r c le_rfl
    exact ⟨s, ev_bind hr hs⟩
  by_cases h1 : Γ.disjoint x y = true
  · exact ⟨.zero, ev_succ (g := fun _ => .ok .zero) (fun n => by rw [commCreate, commStep.eq_def, if_pos h1]) (ev_const _)⟩
  by_cases h2 : Γ.commLt y x = true
  · obtain ⟨r, hr⟩ := ih (2 * (scalDepth y + scalDepth x) + 0) (by rw [if_pos h2] at hd; omega) y x (by rw [hlt _ _ h2]; simp)
    obtain ⟨s, hs, -⟩ := mulScal_ev hT.sortPlus (height r) r (-1) le_rfl
    exact ⟨s, ev_succ (fun n => by rw [commCreate, commStep.eq_def, if_neg h1, if_pos h2]) (ev_bind hr hs)⟩
  by_cases h3 : x = y
  · exact ⟨.zero, ev_succ (g := fun _ => .ok .zero) (fun n => by rw [commCreate, commStep.eq_def, if_neg h1, if_neg h2, if_pos h3]) (ev_const _)⟩
  have hstep : ∀ n, commCreate Γ (n + 1) x y = (match x, y with
    | .scal u A', .scal v B' => commCreate Γ n A' B' >>= mulScal Γ n (u * v)
    | .scal u A', B => commCreate Γ n A' B >>= mulScal Γ n u
    | A, .scal v B' => commCreate Γ n A B' >>= mulScal Γ n v
    | .atom a, .atom b =>
      if Γ.ladder a b then .ok (.scal (-1) .one)
      else if Γ.known a b then mul Γ n (.atom a) (.atom b) >>= fun x => mul Γ n (.atom b) (.atom a) >>= sub Γ n x
      else .ok (.comm (.atom a) (.atom b))
    | A, B => .ok (.comm A B)) := by
    intro n
    rw [commCreate, commStep.eq_def, if_neg h1, if_neg h2, if_neg h3]
    cases x <;> cases y <;> rfl
  have hright : ∀ v B, y = .scal v B → ∃ r, Ev (fun n => commCreate Γ n x B >>= mulScal Γ n v) r := by
    rintro v B rfl
    exact hscal v x B (by simp only [scalDepth]; omega)
  have hcomm : (∀ n, commCreate Γ (n + 1) x y = .ok (.comm x y)) → ∃ r, Ev (fun n => commCreate Γ n x y) r :=
    fun h => ⟨_, ev_succ (g := fun _ => .ok (.comm x y)) h (ev_const _)⟩
  cases x with
  | scal u A =>
    have hy := hscal u A y (by simp only [scalDepth]; omega)
    cases y with
    | scal v B =>
      obtain ⟨r, hr⟩ := hscal (u * v) A B (by simp only [scalDepth]; omega)
      exact ⟨r, ev_succ hstep hr⟩
    | _ => all_goals
      obtain ⟨r, hr⟩ := hy
      exact ⟨r, ev_succ hstep hr⟩
  | atom a =>
    cases y with
    | scal v B =>
      obtain ⟨r, hr⟩ := hright v B rfl
      exact ⟨r, ev_succ hstep hr⟩
    | atom b =>
      by_cases hl : Γ.ladder a b = true
      · exact ⟨.scal (-1) .one, ev_succ (g := fun _ => .ok (.scal (-1) .one)) (fun n => by rw [hstep]; simp only [hl, if_true]) (ev_const _)⟩
      · by_cases hk : Γ.known a b = true
        · obtain ⟨p, hp⟩ := mul_ev hT (.atom a) (.atom b)
          obtain ⟨q, hq⟩ := mul_ev hT (.atom b) (.atom a)
          obtain ⟨r, hr⟩ := sub_ev hT.sortPlus p q
          refine ⟨r, ev_succ (g := fun n => mul Γ n (.atom a) (.atom b) >>= fun x => mul Γ n (.atom b) (.atom a) >>= sub Γ n x) (fun n => ?_)
            (ev_bind hp (ev_bind hq hr))⟩
          rw [hstep]
          simp only [hl, hk, if_true, Bool.false_eq_true, if_false]
        · exact hcomm (fun n => by rw [hstep]; simp only [hl, hk, Bool.false_eq_true, if_false])
    | _ => exact hcomm hstep
  | _ => all_goals
    cases y with
    | scal v B =>
      obtain ⟨r, hr⟩ := hright v B rfl
      exact ⟨r, ev_succ hstep hr⟩
    | _ => exact hcomm hstep

/-- C57: the automatic simplification of every commutator terminates without error, if in addition the order of the operands of commutators is
asymmetric. -/
theorem C57_commutator_terminates (hT : Terminating Γ μ) (hlt : ∀ x y, Γ.commLt x y = true → Γ.commLt y x = false) (x y : QX K) :
    ∃ N r, ∀ n, N ≤ n → commCreate Γ n x y = .ok r := by
  obtain ⟨r, N, hN⟩ := comm_ev hT hlt _ x y le_rfl
  exact ⟨N, r, hN⟩

end comm

/-! ### The hypotheses are satisfiable: ladder operators of any number of modes

`atom (2 k)` is the creation and `atom (2 k + 1)` the annihilation operator of mode `k`; `a_k * a_k^dagger -> 1 + a_k^dagger * a_k`; products of symbols are
sorted by mode, where the order within each mode is kept. -/

section boson

/-- the number of annihilation operators that are left of a creation operator of the same mode, for every pair -/
def inversions : List ℕ → ℕ
  | [] => 0
  | a :: w => w.countP (fun b => b % 2 = 0 ∧ a = b + 1) + inversions w

/-- insert a symbol into a list sorted by mode -/
def insertMode (a : ℕ) : List ℕ → List ℕ
  | [] => [a]
  | b :: w => if b / 2 < a / 2 then b :: insertMode a w else a :: b :: w

/-- stable sorting by mode -/
def sortModes : List ℕ → List ℕ
  | [] => []
  | a :: w => insertMode a (sortModes w)

/-- the list of symbols, if there is nothing else -/
def atoms? : List (QX K) → Option (List ℕ)
  | [] => some []
  | .atom a :: l => (atoms? l).map (a :: ·)
  | _ => none

/-- the context -/
def Ctx.boson (K : Type) : Ctx K where
  atomRule a b := if b % 2 = 0 ∧ a = b + 1 then some (.plus [.one, .times [.atom b, .atom a]]) else none
  sortPlus := id
  sortTimes l := match atoms? l with | some w => (sortModes w).map .atom | none => l
  disjoint _ _ := false
  commLt _ _ := false
  ladder _ _ := false
  known a b := a / 2 = b / 2

theorem inversions_perm {p u v q : List ℕ} (h : u.Perm v) (hi : inversions (u ++ q) ≤ inversions (v ++ q)) : inversions (p ++ u ++ q) ≤ inversions (p ++ v ++ q) := by
  induction p with
  | nil => exact hi
  | cons a p ih =>
    simp only [List.cons_append, inversions]
    have e : (p ++ u ++ q).countP (fun b => b % 2 = 0 ∧ a = b + 1) = (p ++ v ++ q).countP (fun b => b % 2 = 0 ∧ a = b + 1) :=
      List.Perm.countP_eq _ ((h.append_left p).append_right q)
    omega

theorem inversions_sub {w v : List ℕ} (h : w.Sublist v) : inversions w ≤ inversions v := by
  induction h with
  | slnil => exact le_rfl
  | cons a h ih => rw [inversions]; omega
  | cons_cons a h ih =>
    rw [inversions, inversions]
    have := h.countP_le (p := fun b => decide (b % 2 = 0 ∧ a = b + 1))
    omega

theorem inversions_swap (a b : ℕ) (h : a / 2 ≠ b / 2) (q : List ℕ) : inversions (a :: b :: q) = inversions (b :: a :: q) := by
  simp only [inversions, List.countP_cons]
  have h1 : ¬ (b % 2 = 0 ∧ a = b + 1) := by omega
  have h2 : ¬ (a % 2 = 0 ∧ b = a + 1) := by omega
  simp only [decide_eq_true_eq, h1, h2, if_false]
  omega

theorem insertMode_perm (a : ℕ) (w : List ℕ) : (insertMode a w).Perm (a :: w) := by
  induction w with
  | nil => exact List.Perm.refl _
  | cons b w ih =>
    unfold insertMode
    split
    · exact (ih.cons b).trans (List.Perm.swap a b w)
    · exact List.Perm.refl _

theorem sortModes_perm (w : List ℕ) : (sortModes w).Perm w := by
  induction w with
  | nil => exact List.Perm.refl _
  | cons a w ih => exact (insertMode_perm a _).trans (ih.cons a)

theorem inversions_insert (a : ℕ) (w q : List ℕ) : inversions (insertMode a w ++ q) = inversions (a :: w ++ q) := by
  induction w with
  | nil => rfl
  | cons b w ih =>
    unfold insertMode
    split
    · rename_i h
      rw [List.cons_append, inversions, ih]
      have e : (insertMode a w ++ q).countP (fun c => c % 2 = 0 ∧ b = c + 1) = (a :: w ++ q).countP (fun c => c % 2 = 0 ∧ b = c + 1) :=
        List.Perm.countP_eq _ ((insertMode_perm a w).append_right q)
      rw [e, ← inversions]
      exact inversions_swap b a (by omega) (w ++ q)
    · rfl

theorem inversions_sort (w q : List ℕ) : inversions (sortModes w ++ q) = inversions (w ++ q) := by
  induction w with
  | nil => rfl
  | cons a w ih =>
    rw [sortModes, inversions_insert, List.cons_append, List.cons_append, inversions, inversions, ih]
    rw [List.Perm.countP_eq _ ((sortModes_perm w).append_right q)]

theorem atoms?_eq {l : List (QX K)} {w : List ℕ} (h : atoms? l = some w) : l = w.map .atom := by
  induction l generalizing w with
  | nil => simp only [atoms?, Option.some.injEq] at h; subst h; rfl
  | cons x l ih =>
    cases x with
    | atom a =>
      simp only [atoms?, Option.map_eq_some_iff] at h
      obtain ⟨v, hv, rfl⟩ := h
      rw [ih hv]; rfl
    | _ => simp [atoms?] at h

theorem wordsProd_atoms (w : List ℕ) : wordsProd (w.map (.atom : ℕ → QX K)) = [w] := by
  induction w with
  | nil => rfl
  | cons a w ih => simp [wordsProd, words, ih]

theorem boson_terminating : Terminating (Ctx.boson K) (fun w => inversions w + w.length) where
  sortPlus _ := List.Perm.refl _
  sortTimes l := by
    show (match atoms? l with | some w => (sortModes w).map QX.atom | none => l).Perm l
    cases h : atoms? l with
    | none => exact List.Perm.refl _
    | some w => rw [atoms?_eq h]; exact (sortModes_perm w).map _
  sub h := by
    have h1 := inversions_sub h
    have h2 := h.length_le
    omega
  rule a b r hr w hw p q := by
    have hr : (if b % 2 = 0 ∧ a = b + 1 then some (QX.plus [.one, .times [.atom b, .atom a]]) else none) = some r := hr
    split at hr
    · rename_i hab
      obtain ⟨hb, rfl⟩ := hab
      injection hr with hr
      subst hr
      simp only [words, wordsSum, wordsProd] at hw
      have hle : inversions (p ++ [b, b + 1] ++ q) < inversions (p ++ [b + 1, b] ++ q) := by
        induction p with
        | nil =>
          simp only [List.nil_append, List.cons_append, inversions, List.countP_cons]
          have h1 : ¬ ((b + 1) % 2 = 0 ∧ b = b + 1 + 1) := by omega
          have h2 : b % 2 = 0 ∧ b + 1 = b + 1 := ⟨hb, rfl⟩
          simp only [decide_eq_true_eq, h1, h2, if_false, and_self, if_true]
          omega
        | cons c p ih =>
          simp only [List.cons_append, inversions]
          have e : (p ++ [b, b + 1] ++ q).countP (fun d => d % 2 = 0 ∧ c = d + 1) = (p ++ [b + 1, b] ++ q).countP (fun d => d % 2 = 0 ∧ c = d + 1) :=
            List.Perm.countP_eq _ (((List.Perm.swap _ _ _).append_left p).append_right q)
          omega
      have hw : w = [] ∨ w = [b, b + 1] := by simpa using hw
      rcases hw with rfl | rfl
      · have h1 : inversions (p ++ [] ++ q) ≤ inversions (p ++ [b + 1, b] ++ q) :=
          inversions_sub (((List.Sublist.refl p).append (List.nil_sublist _)).append (List.Sublist.refl q))
        simp only [List.length_append, List.length_cons, List.length_nil]
        omega
      · simp only [List.length_append, List.length_cons, List.length_nil]
        omega
    · cases hr
  sort l w hw := by
    have hw : w ∈ wordsProd (match atoms? l with | some w => (sortModes w).map QX.atom | none => l) := hw
    cases h : atoms? l with
    | none => rw [h] at hw; exact ⟨w, hw, fun p q => le_rfl⟩
    | some v =>
      rw [h] at hw
      simp only [wordsProd_atoms, List.mem_singleton] at hw
      subst hw
      refine ⟨v, by rw [atoms?_eq h, wordsProd_atoms]; simp, fun p q => ?_⟩
      have h1 := inversions_perm (p := p) (q := q) (sortModes_perm v) (le_of_eq (inversions_sort v q))
      have h2 := (sortModes_perm v).length_eq
      simp only [List.length_append]
      omega

/-- every product of (sums and products and multiples of) ladder operators is simplified in finitely many steps -/
example (ops : List (QX ℤ)) : ∃ N r, ∀ n, N ≤ n → timesCreate (Ctx.boson ℤ) n ops = .ok r := C57_times_terminates boson_terminating ops
example (x y : QX ℤ) : ∃ N r, ∀ n, N ≤ n → commCreate (Ctx.boson ℤ) n x y = .ok r :=
  C57_commutator_terminates boson_terminating (fun _ _ h => by cases h) x y
/-- `a_1 * a_0 * a_0^dagger`: sorted by mode, then normally ordered -/
example : timesCreate (Ctx.boson ℤ) 20 [.atom 3, .atom 1, .atom 0] = .ok (.times [.plus [.one, .times [.atom 0, .atom 1]], .atom 3]) := by kernel_rfl

end boson

end QNET.QAlg
