import Verif.Deriv.Spec
import Verif.Indexed.Sem
import Mathlib.Analysis.Calculus.Taylor
import Mathlib.Data.List.Perm.Basic

/-!
# C88: theorems
-/

namespace QNET.Deriv

open QNET.Perm (Res Err)
open QNET (isort)
open QNET.Indexed (Except.bind_ok)
open scoped ContDiff

set_option linter.unusedSectionVars false

variable {ι : Type} [LinearOrder ι]

/-! ### dictionaries -/

theorem ordered_perm {β : Type} (d : List (ι × β)) : (ordered d).Perm d := QNET.isort_perm _ _

theorem get_mem {β : Type} {d : List (ι × β)} {k : ι} {v : β} (h : get d k = some v) : (k, v) ∈ d := by
  unfold get at h
  obtain ⟨p, hp, rfl⟩ := Option.map_eq_some_iff.mp h
  have h1 := List.find?_some hp
  have h2 := List.mem_of_find?_eq_some hp
  simp only [decide_eq_true_eq] at h1
  rw [← h1]; exact h2

theorem get_eq_none {β : Type} {d : List (ι × β)} {k : ι} : get d k = none ↔ k ∉ d.map Prod.fst := by
  unfold get
  rw [Option.map_eq_none_iff, List.find?_eq_none]
  simp only [decide_eq_true_eq, List.mem_map, not_exists, not_and]

theorem get_of_mem {β : Type} {d : List (ι × β)} (hd : (d.map Prod.fst).Nodup) {k : ι} {v : β} (h : (k, v) ∈ d) : get d k = some v := by
  cases hg : get d k with
  | none => exact absurd (List.mem_map.mpr ⟨_, h, rfl⟩) (get_eq_none.mp hg)
  | some w =>
    have h2 := get_mem hg
    have := List.inj_on_of_nodup_map hd h2 h rfl
    exact congrArg some (Prod.mk.inj this).2

theorem get_perm {β : Type} {d e : List (ι × β)} (hp : d.Perm e) (hd : (d.map Prod.fst).Nodup) (k : ι) : get d k = get e k := by
  cases hg : get d k with
  | none => exact (get_eq_none.mpr (by rw [← (hp.map Prod.fst).mem_iff]; exact get_eq_none.mp hg)).symm
  | some v => exact (get_of_mem ((hp.map Prod.fst).nodup_iff.mp hd) (hp.mem_iff.mp (get_mem hg))).symm

theorem keys_set {β : Type} (d : List (ι × β)) (k : ι) (v : β) :
    (set d k v).map Prod.fst = if k ∈ d.map Prod.fst then d.map Prod.fst else d.map Prod.fst ++ [k] := by
  unfold set
  split
  · rw [List.map_map]
    apply List.map_congr_left
    intro p _
    simp only [Function.comp]
    split
    · rename_i h; exact h.symm
    · rfl
  · simp

theorem nodup_set {β : Type} {d : List (ι × β)} (hd : (d.map Prod.fst).Nodup) (k : ι) (v : β) : ((set d k v).map Prod.fst).Nodup := by
  rw [keys_set]
  split
  · exact hd
  · rename_i h
    rw [List.nodup_append]
    refine ⟨hd, List.nodup_singleton _, ?_⟩
    intro a ha b hb
    simp only [List.mem_singleton] at hb
    subst hb
    rintro rfl
    exact h ha

theorem get_cons {β : Type} (p : ι × β) (d : List (ι × β)) (i : ι) : get (p :: d) i = if p.1 = i then some p.2 else get d i := by
  unfold get
  rw [List.find?_cons]
  by_cases h : p.1 = i <;> simp [h]

theorem get_map {β : Type} (d : List (ι × β)) (k : ι) (v : β) (i : ι) :
    get (d.map (fun p => if p.1 = k then (k, v) else p)) i = if i = k then (if k ∈ d.map Prod.fst then some v else none) else get d i := by
  induction d with
  | nil => simp [get]
  | cons p d ih =>
    rw [List.map_cons, get_cons, ih, get_cons]
    by_cases hp : p.1 = k
    · by_cases hi : i = k
      · subst hi; simp [hp]
      · have h1 : ¬ (k = i) := fun e => hi e.symm
        simp [hp, hi, h1]
    · by_cases hi : i = k
      · subst hi
        have h1 : ¬ (i = p.1) := fun e => hp e.symm
        have h2 : i ∈ (p :: d).map Prod.fst ↔ i ∈ d.map Prod.fst := by rw [List.map_cons, List.mem_cons]; simp only [h1, false_or]
        rw [if_neg hp, if_neg hp, if_pos rfl, if_pos rfl]
        by_cases hm : i ∈ d.map Prod.fst
        · rw [if_pos hm, if_pos (h2.mpr hm)]
        · rw [if_neg hm, if_neg (fun h => hm (h2.mp h))]
      · simp [hp, hi]

theorem get_append {β : Type} (d e : List (ι × β)) (i : ι) : get (d ++ e) i = (get d i).or (get e i) := by
  induction d with
  | nil => simp [get]
  | cons p d ih =>
    rw [List.cons_append, get_cons, get_cons, ih]
    split <;> simp

theorem get_set {β : Type} (d : List (ι × β)) (k : ι) (v : β) (i : ι) : get (set d k v) i = if i = k then some v else get d i := by
  unfold set
  split
  · rename_i h
    rw [get_map, if_pos h]
  · rename_i h
    rw [get_append, get_cons]
    by_cases hi : i = k
    · subst hi
      rw [get_eq_none.mpr h]; simp
    · have h1 : ¬ (k = i) := fun e => hi e.symm
      simp [h1, hi, get]

theorem nodup_update {β : Type} {d : List (ι × β)} (hd : (d.map Prod.fst).Nodup) (e : List (ι × β)) : ((update d e).map Prod.fst).Nodup := by
  unfold update
  induction e generalizing d with
  | nil => exact hd
  | cons p e ih => exact ih (nodup_set hd _ _)

theorem keys_update {β : Type} (d e : List (ι × β)) (i : ι) : i ∈ (update d e).map Prod.fst ↔ i ∈ d.map Prod.fst ∨ i ∈ e.map Prod.fst := by
  unfold update
  induction e generalizing d with
  | nil => simp
  | cons p e ih =>
    rw [List.foldl_cons, ih, keys_set]
    split
    · rename_i h
      simp only [List.map_cons, List.mem_cons]
      constructor
      · rintro (h1 | h1); exact Or.inl h1; exact Or.inr (Or.inr h1)
      · rintro (h1 | rfl | h1); exact Or.inl h1; exact Or.inl h; exact Or.inr h1
    · simp only [List.map_cons, List.mem_cons, List.mem_append, List.not_mem_nil, or_false]
      tauto

/-- the values after an update: the new ones where given -/
theorem get_update {β : Type} (d e : List (ι × β)) (he : (e.map Prod.fst).Nodup) (i : ι) : get (update d e) i = (get e i).or (get d i) := by
  unfold update
  induction e generalizing d with
  | nil => simp [get]
  | cons p e ih =>
    rw [List.map_cons, List.nodup_cons] at he
    rw [List.foldl_cons, ih _ he.2, get_set, get_cons]
    by_cases h : p.1 = i
    · subst h
      rw [get_eq_none.mpr he.1]; simp
    · have h1 : ¬ (i = p.1) := fun e => h e.symm
      simp [h, h1]

/-- the order of the items of a dictionary does not matter after sorting -/
theorem ordered_eq {β : Type} {d e : List (ι × β)} (hp : d.Perm e) (hd : (d.map Prod.fst).Nodup) : ordered d = ordered e := by
  have key : ∀ l : List (ι × β), (l.map Prod.fst).Nodup → (ordered l).Pairwise (fun p q => p.1 < q.1) := by
    intro l hl
    have h1 : (ordered l).Pairwise (fun p q => p.1 ≤ q.1) := by
      have := QNET.isort_pairwise (le := fun p q : ι × β => decide (p.1 ≤ q.1)) (by intro a b c h1 h2; simp at *; exact h1.trans h2)
        (by intro a b; simp only [Bool.or_eq_true, decide_eq_true_eq]; exact le_total _ _) l
      exact this.imp fun h => by simpa using h
    have h2 : ((ordered l).map Prod.fst).Nodup := (((ordered_perm l).map Prod.fst).nodup_iff).mpr hl
    have h3 : (ordered l).Pairwise (fun p q => p.1 ≠ q.1) := by
      rw [List.Nodup, List.pairwise_map] at h2; exact h2
    exact (h1.and h3).imp fun h => lt_of_le_of_ne h.1 h.2
  have hpe : (ordered d).Perm (ordered e) := ((ordered_perm d).trans hp).trans (ordered_perm e).symm
  exact hpe.eq_of_pairwise (fun a b _ _ h1 h2 => absurd (h1.trans h2) (lt_irrefl _)) (key d hd)
    (key e ((hp.map Prod.fst).nodup_iff.mp hd))

/-! ### partial derivatives in any order -/

section
variable {V : Type} [NormedAddCommGroup V] [NormedSpace ℝ V] [Fintype ι]

theorem pdn_pd {f : (ι → ℝ) → V} (hf : ContDiff ℝ ∞ f) (s t : ι) (k : ℕ) : (pd s)^[k] (pd t f) = pd t ((pd s)^[k] f) := by
  induction k generalizing f with
  | zero => rfl
  | succ k ih => rw [Function.iterate_succ_apply, pd_comm hf, ih (pd_smooth hf s)]; rfl

theorem pds_pd {f : (ι → ℝ) → V} (hf : ContDiff ℝ ∞ f) (t : ι) (d : List (ι × ℕ)) : pds d (pd t f) = pd t (pds d f) := by
  induction d generalizing f with
  | nil => rfl
  | cons p d ih =>
    show pds d ((pd p.1)^[p.2] (pd t f)) = _
    rw [pdn_pd hf, ih (pdn_smooth hf _ _)]
    rfl

theorem pds_pdn {f : (ι → ℝ) → V} (hf : ContDiff ℝ ∞ f) (t : ι) (k : ℕ) (d : List (ι × ℕ)) : pds d ((pd t)^[k] f) = (pd t)^[k] (pds d f) := by
  induction k with
  | zero => rfl
  | succ k ih => rw [Function.iterate_succ_apply', Function.iterate_succ_apply', pds_pd (pdn_smooth hf t k), ih]

theorem pds_perm {f : (ι → ℝ) → V} (hf : ContDiff ℝ ∞ f) {d e : List (ι × ℕ)} (h : d.Perm e) : pds d f = pds e f := by
  induction h generalizing f with
  | nil => rfl
  | cons p _ ih => exact ih (pdn_smooth hf _ _)
  | swap p q l =>
    show pds l ((pd p.1)^[p.2] ((pd q.1)^[q.2] f)) = pds l ((pd q.1)^[q.2] ((pd p.1)^[p.2] f))
    have h1 := pds_pdn hf q.1 q.2 [(p.1, p.2)]
    have h2 : (pd p.1)^[p.2] ((pd q.1)^[q.2] f) = (pd q.1)^[q.2] ((pd p.1)^[p.2] f) := h1
    rw [h2]
  | trans _ _ ih1 ih2 => exact (ih1 hf).trans (ih2 hf)

theorem pds_incr {f : (ι → ℝ) → V} (hf : ContDiff ℝ ∞ f) {d : List (ι × ℕ)} (hd : (d.map Prod.fst).Nodup) (s : ι) :
    pds (set d s ((get d s).getD 0 + 1)) f = pd s (pds d f) := by
  by_cases hs : s ∈ d.map Prod.fst
  · obtain ⟨⟨s', k⟩, hp, rfl⟩ := List.mem_map.mp hs
    have hg := get_of_mem hd hp
    obtain ⟨d1, d2, rfl⟩ := List.append_of_mem hp
    have h1 : ∀ q ∈ d1 ++ d2, q.1 ≠ s' := by
      rw [List.map_append, List.map_cons, List.nodup_middle, List.nodup_cons, ← List.map_append] at hd
      exact fun q hq e => hd.1 (List.mem_map.mpr ⟨q, hq, e⟩)
    have hid : ∀ l : List (ι × ℕ), (∀ q ∈ l, q.1 ≠ s') → l.map (fun p => if p.1 = s' then (s', k + 1) else p) = l := by
      intro l hl
      conv_rhs => rw [← List.map_id l]
      exact List.map_congr_left fun q hq => by simp [hl q hq]
    dsimp only at hs hg ⊢
    rw [hg]
    unfold set
    rw [if_pos hs, List.map_append, List.map_cons]
    simp only [Option.getD_some, ↓reduceIte]
    rw [hid d1 fun q hq => h1 q (by simp [hq]), hid d2 fun q hq => h1 q (by simp [hq])]
    rw [pds_perm hf (List.perm_middle (l₁ := d1) (l₂ := d2) (a := (s', k + 1))), pds_perm hf (List.perm_middle (l₁ := d1) (l₂ := d2) (a := (s', k)))]
    show pds (d1 ++ d2) ((pd s')^[k + 1] f) = pd s' (pds (d1 ++ d2) ((pd s')^[k] f))
    rw [Function.iterate_succ_apply', pds_pd (pdn_smooth hf _ _)]
  · rw [get_eq_none.mpr hs]
    unfold set
    rw [if_neg hs]
    show List.foldl _ _ _ = _
    rw [List.foldl_append]
    rfl

end

end QNET.Deriv
