import Verif.Perm.Model
import Mathlib.Data.List.Perm.Basic
import Mathlib.Data.List.Nodup
import Mathlib.Data.List.Perm.Subperm

/-! # Helper lemmas for the permutation model (not property statements) -/

namespace QNET.Perm

/-- Working notion of a valid permutation. -/
def Valid (p : List Nat) : Prop := p.Perm (List.range p.length)

theorem sorted_perm (l : List Nat) : (sorted l).Perm l := isort_perm _ _

theorem sorted_pairwise (l : List Nat) : (sorted l).Pairwise (· ≤ ·) := by
  have := isort_pairwise (le := fun a b : Nat => decide (a ≤ b))
    (by intro a b c; simp; omega) (by intro a b; simp; omega) l
  exact this.imp (by simp)

theorem pairwise_le_range (n : Nat) : (List.range n).Pairwise (· ≤ ·) :=
  (List.pairwise_lt_range (n := n)).imp (by omega)

theorem eq_of_perm_sorted {l₁ l₂ : List Nat} (h : l₁.Perm l₂) (h1 : l₁.Pairwise (· ≤ ·))
    (h2 : l₂.Pairwise (· ≤ ·)) : l₁ = l₂ :=
  h.eq_of_pairwise (by intros; omega) h1 h2

theorem sorted_eq_range_iff (l : List Nat) (n : Nat) : sorted l = List.range n ↔ l.Perm (List.range n) := by
  constructor
  · intro h; exact (h ▸ sorted_perm l).symm
  · intro h
    exact eq_of_perm_sorted ((sorted_perm l).trans h) (sorted_pairwise l) (pairwise_le_range n)

theorem check_iff (p : List Nat) : check p = true ↔ Valid p := by
  simp [check, Valid, sorted_eq_range_iff]

theorem Valid.nodup {p : List Nat} (h : Valid p) : p.Nodup := h.nodup_iff.mpr List.nodup_range

theorem Valid.mem_iff {p : List Nat} (h : Valid p) (x : Nat) : x ∈ p ↔ x < p.length := by
  rw [List.Perm.mem_iff h, List.mem_range]

theorem Valid.lt {p : List Nat} (h : Valid p) {i : Nat} (hi : i < p.length) : p[i] < p.length :=
  (h.mem_iff _).mp (List.getElem_mem hi)

theorem valid_of_nodup_lt {p : List Nat} (hn : p.Nodup) (hl : ∀ x ∈ p, x < p.length) : Valid p := by
  have hs : p ⊆ List.range p.length := fun x hx => List.mem_range.mpr (hl x hx)
  have := (List.subperm_of_subset hn hs)
  exact this.perm_of_length_le (by simp)

theorem valid_range (n : Nat) : Valid (List.range n) := by simp [Valid]

/-! ## `mapM` in `Except` -/

theorem mapM_ok_of {α β : Type} {f : α → Res β} {g : α → β} (l : List α)
    (h : ∀ x ∈ l, f x = .ok (g x)) : l.mapM f = .ok (l.map g) := by
  induction l with
  | nil => rfl
  | cons a t ih =>
    rw [List.mapM_cons, h a (by simp), ih (fun x hx => h x (by simp [hx]))]
    rfl

theorem getItem_ok {α : Type} {s : List α} {i : Nat} (h : i < s.length) : getItem s i = .ok s[i] := by
  simp [getItem, List.getElem?_eq_getElem h]

theorem getItem_eq_ok_iff {α : Type} {s : List α} {i : Nat} {x : α} :
    getItem s i = .ok x ↔ s[i]? = some x := by
  unfold getItem; cases h : s[i]? <;> simp

theorem index_ok {s : List Nat} {x : Nat} (h : x ∈ s) : index s x = .ok (s.idxOf x) := by
  unfold index
  have e := List.idxOf_eq_getD_idxOf? x s
  cases hx : s.idxOf? x with
  | none => rw [hx] at e; simp at e; exact absurd (List.idxOf_lt_length_iff.mpr h) (by omega)
  | some i => rw [hx] at e; simp at e; simp [e]

/-! ## inversion -/

/-- the value of `invert` on valid input -/
def inv (p : List Nat) : List Nat := (List.range p.length).map (fun k => p.idxOf k)

theorem invert_ok {p : List Nat} (h : Valid p) : invert p = .ok (inv p) := by
  unfold invert inv
  apply mapM_ok_of
  intro x hx
  exact index_ok ((h.mem_iff x).mpr (List.mem_range.mp hx))

@[simp] theorem inv_length (p : List Nat) : (inv p).length = p.length := by simp [inv]

theorem inv_getElem {p : List Nat} {k : Nat} (hk : k < (inv p).length) :
    (inv p)[k] = p.idxOf k := by simp [inv]

theorem inv_lt {p : List Nat} (h : Valid p) {k : Nat} (hk : k < (inv p).length) :
    (inv p)[k] < p.length := by
  rw [inv_getElem]
  exact List.idxOf_lt_length_iff.mpr ((h.mem_iff k).mpr (by simpa using hk))

theorem getElem_inv {p : List Nat} (h : Valid p) {k : Nat} (hk : k < (inv p).length) :
    p[(inv p)[k]]'(inv_lt h hk) = k := by
  simp [inv_getElem]

theorem inv_getElem_getElem {p : List Nat} (h : Valid p) {k : Nat} (hk : k < p.length) :
    (inv p)[p[k]]'(by simpa using h.lt hk) = k := by
  rw [inv_getElem]
  exact h.nodup.idxOf_getElem k hk

theorem inv_valid {p : List Nat} (h : Valid p) : Valid (inv p) := by
  apply valid_of_nodup_lt
  · rw [List.nodup_iff_injective_getElem]
    intro ⟨a, ha⟩ ⟨b, hb⟩ hab
    simp only at hab
    have h1 := getElem_inv h ha
    have h2 := getElem_inv h hb
    simp only [hab] at h1
    simp only [Fin.mk.injEq]
    exact h1.symm.trans h2
  · intro x hx
    obtain ⟨i, hi, rfl⟩ := List.mem_iff_getElem.mp hx
    simpa using inv_lt h hi

theorem inv_inv {p : List Nat} (h : Valid p) : inv (inv p) = p := by
  apply List.ext_getElem (by simp)
  intro i h1 h2
  have hv := inv_valid h
  have e := inv_getElem_getElem hv (k := p[i]) (by simpa using h.lt h2)
  have e2 := inv_getElem_getElem h h2
  simpa [e2] using e

/-! ## permute / compose -/

theorem permute_ok {α : Type} [Inhabited α] {s : List α} {p : List Nat} (hl : s.length = p.length) (h : Valid p) :
    permute s p = .ok (p.map (fun i => s.getD i default)) := by
  unfold permute
  simp only [hl, ne_eq, not_true_eq_false, if_false, (check_iff p).mpr h, Bool.not_true, Bool.false_eq_true]
  apply mapM_ok_of
  intro x hx
  have : x < s.length := by rw [hl]; exact (h.mem_iff x).mp hx
  simp [getItem, this]

/-- value of `compose` on valid input of equal length: `j ↦ a[b[j]]` -/
def comp (a b : List Nat) : List Nat := b.map (fun i => a.getD i 0)

@[simp] theorem comp_length (a b : List Nat) : (comp a b).length = b.length := by simp [comp]

theorem compose_ok {a b : List Nat} (hl : a.length = b.length) (h : Valid b) : compose a b = .ok (comp a b) := by
  unfold compose; rw [permute_ok hl h]; rfl

theorem comp_getElem {a b : List Nat} (hl : a.length = b.length) (h : Valid b) {i : Nat} (hi : i < b.length) :
    (comp a b)[i]'(by simpa using hi) = a[b[i]]'(by rw [hl]; exact h.lt hi) := by
  have : b[i] < a.length := by rw [hl]; exact h.lt hi
  simp [comp, this]

theorem comp_valid {a b : List Nat} (hl : a.length = b.length) (ha : Valid a) (hb : Valid b) : Valid (comp a b) := by
  apply valid_of_nodup_lt
  · rw [List.nodup_iff_injective_getElem]
    intro ⟨i, hi⟩ ⟨j, hj⟩ hij
    simp only [comp_length] at hi hj
    simp only [comp_getElem hl hb hi, comp_getElem hl hb hj] at hij
    have := (List.Nodup.getElem_inj_iff ha.nodup).mp hij
    have := (List.Nodup.getElem_inj_iff hb.nodup).mp this
    simp [this]
  · intro x hx
    obtain ⟨i, hi, rfl⟩ := List.mem_iff_getElem.mp hx
    simp only [comp_length] at hi ⊢
    rw [comp_getElem hl hb hi]
    exact Nat.lt_of_lt_of_eq (ha.lt _) hl

theorem comp_inv {p : List Nat} (h : Valid p) : comp p (inv p) = List.range p.length := by
  apply List.ext_getElem (by simp)
  intro i h1 h2
  simp only [comp_length, inv_length] at h1
  rw [comp_getElem (by simp) (inv_valid h) (by simpa using h1)]
  simp [inv_getElem]

theorem inv_comp {p : List Nat} (h : Valid p) : comp (inv p) p = List.range p.length := by
  apply List.ext_getElem (by simp)
  intro i h1 h2
  simp only [comp_length] at h1
  rw [comp_getElem (by simp) h h1, inv_getElem_getElem h h1]
  simp

end QNET.Perm
