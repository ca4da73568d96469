import Mathlib.Data.Fintype.BigOperators
import Mathlib.Tactic.Ring
import Mathlib.Algebra.BigOperators.Fin
import Verif.Trace.Ptrace
import Verif.Convert.Model
import Verif.State.Spec

/-!
# Matrices that represent operators and states on a product of local spaces

Specification: the row or column number of a configuration is the mixed-radix number of its indices, first factor most
significant (the convention of `numpy.kron`).
-/

namespace QNET.Convert

open QNET.Perm (Res Err)
open QNET.Mat (Mat identity dot scalarMul)
open QNET.Trace (Cfg ActsOn embed)
open Finset

variable {ι : Type} [Fintype ι] [LinearOrder ι] {d : ι → ℕ} {K : Type} [Field K]

/-- The number of the configuration `x` in the basis of the product of the local spaces `fs`. -/
def idx (d : ι → ℕ) : List ι → Cfg d → ℕ
  | [], _ => 0
  | l :: t, x => x l * (t.map d).prod + idx d t x

/-- The matrix `M` represents the operator `V` on the local spaces `fs`: it has the right shape, and its entries are the matrix
elements of `V`. -/
def Represents (d : ι → ℕ) (fs : List ι) (M : Mat K) (V : Trace.Mat d K) : Prop :=
  M.r = (fs.map d).prod ∧ M.c = (fs.map d).prod ∧ ∀ x y : Cfg d, (∀ i ∉ fs, x i = y i) → M.e (idx d fs x) (idx d fs y) = V x y

/-- The matrix `M` is the column of the state `v` on the local spaces `fs`. -/
def RepresentsKet (d : ι → ℕ) (fs : List ι) (M : Mat K) (v : State.Vec d K) : Prop :=
  M.r = (fs.map d).prod ∧ M.c = 1 ∧ ∀ x : Cfg d, M.e (idx d fs x) 0 = v x

omit [Fintype ι] in
theorem idx_lt (fs : List ι) (x : Cfg d) : idx d fs x < (fs.map d).prod := by
  induction fs with
  | nil => simp [idx]
  | cons l t ih =>
    simp only [idx, List.map_cons, List.prod_cons]
    have h := (x l).2
    calc x l * (t.map d).prod + idx d t x < x l * (t.map d).prod + (t.map d).prod := by omega
      _ = (x l + 1) * (t.map d).prod := by ring
      _ ≤ d l * (t.map d).prod := Nat.mul_le_mul_right _ h

omit [Fintype ι] in
theorem idx_congr (fs : List ι) {x y : Cfg d} (h : ∀ i ∈ fs, x i = y i) : idx d fs x = idx d fs y := by
  induction fs with
  | nil => rfl
  | cons l t ih =>
    simp only [idx]
    rw [h l (by simp), ih fun i hi => h i (List.mem_cons_of_mem _ hi)]

omit [Fintype ι] in
theorem idx_div (l : ι) (t : List ι) (x : Cfg d) : idx d (l :: t) x / (t.map d).prod = x l := by
  have h := idx_lt t x
  simp only [idx]
  rw [mul_comm, Nat.mul_add_div (by omega), Nat.div_eq_of_lt h, add_zero]

omit [Fintype ι] in
theorem idx_mod (l : ι) (t : List ι) (x : Cfg d) : idx d (l :: t) x % (t.map d).prod = idx d t x := by
  have h := idx_lt t x
  simp only [idx]
  rw [mul_comm, Nat.mul_add_mod, Nat.mod_eq_of_lt h]

omit [Fintype ι] in
theorem idx_single (l : ι) (x : Cfg d) : idx d [l] x = x l := by simp [idx]

/-- two commuting pieces: the entry of a product of operators on disjoint spaces -/
theorem mul_entry {l : ι} {t : List ι} (hl : l ∉ t) {V W : Trace.Mat d K} (hV : ActsOn {l} V) (hW : ActsOn t.toFinset W) {x y : Cfg d}
    (h : ∀ i ∉ l :: t, x i = y i) :
    (V * W) x y = V x (Function.update x l (y l)) * W (Function.update x l (y l)) y := by
  rw [Matrix.mul_apply, Fintype.sum_eq_single]
  intro z hz
  obtain ⟨i, hi⟩ := Function.ne_iff.mp hz
  by_cases hil : i = l
  · subst hil
    rw [Function.update_self] at hi
    rw [hW.1 z y i (by simpa using hl) hi, mul_zero]
  · rw [Function.update_of_ne hil] at hi
    rw [hV.1 x z i (by simpa using hil) (Ne.symm hi), zero_mul]

theorem kron_rep {l : ι} {t : List ι} (hl : l ∉ t) {A B : Mat K} {V W : Trace.Mat d K} (hA : Represents d [l] A V)
    (hB : Represents d t B W) (hV : ActsOn {l} V) (hW : ActsOn t.toFinset W) : Represents d (l :: t) (kron A B) (V * W) := by
  obtain ⟨a1, a2, a3⟩ := hA
  obtain ⟨b1, b2, b3⟩ := hB
  refine ⟨by simp [kron, a1, b1], by simp [kron, a2, b2], fun x y hxy => ?_⟩
  rw [mul_entry hl hV hW hxy]
  simp only [kron, b1, b2]
  rw [idx_div, idx_div, idx_mod, idx_mod]
  congr 1
  · rw [← a3 x (Function.update x l (y l)) (by
      intro i hi
      rw [Function.update_of_ne (by simpa using hi)]), idx_single, idx_single, Function.update_self]
  · rw [← b3 (Function.update x l (y l)) y (by
      intro i hi
      by_cases h : i = l
      · subst h; simp
      · rw [Function.update_of_ne h]
        exact hxy i (by simp [h, hi]))]
    congr 1
    apply idx_congr
    intro i hi
    rw [Function.update_of_ne]
    rintro rfl
    exact hl hi

omit [Fintype ι] in
theorem agree_all {x y : Cfg d} {fs : List ι} (h : ∀ i ∉ fs, x i = y i) (h' : ∀ i ∈ fs, x i = y i) : x = y := by
  funext i
  by_cases hi : i ∈ fs
  · exact h' i hi
  · exact h i hi

theorem nil_rep : Represents d [] (identity 1 : Mat K) 1 := by
  refine ⟨by simp [identity], by simp [identity], fun x y h => ?_⟩
  have : x = y := funext fun i => h i (by simp)
  subst this
  simp [idx, identity]

theorem acts_list_prod {f : ι → Trace.Mat d K} (hf : ∀ l, ActsOn {l} (f l)) (fs : List ι) : ActsOn fs.toFinset (fs.map f).prod := by
  induction fs with
  | nil => simpa using Trace.actsOn_one (∅ : Finset ι)
  | cons l t ih =>
    rw [List.map_cons, List.prod_cons]
    exact ((hf l).mono (by simp)).mul (ih.mono (by
      intro i hi; simp only [List.mem_toFinset, List.mem_cons] at hi ⊢; exact Or.inr hi))

/-- the tensor product of matrices represents the product of the operators they represent -/
theorem kronL_rep {f : ι → Trace.Mat d K} (hf : ∀ l, ActsOn {l} (f l)) : ∀ {fs : List ι} {ms : List (Mat K)}, fs.Nodup →
    List.Forall₂ (fun l M => Represents d [l] M (f l)) fs ms → Represents d fs (kronL ms) (fs.map f).prod
  | [], _, _, .nil => by simpa [kronL] using nil_rep
  | l :: t, _, hn, .cons h hg => by
    rw [List.nodup_cons] at hn
    rw [kronL, List.map_cons, List.prod_cons]
    exact kron_rep hn.1 h (kronL_rep hf hn.2 hg) (hf l) (acts_list_prod hf t)

theorem add_rep {fs : List ι} {A B C : Mat K} {V W : Trace.Mat d K} (hA : Represents d fs A V) (hB : Represents d fs B W)
    (h : addQ A B = .ok C) : Represents d fs C (V + W) := by
  rw [addQ] at h
  split at h
  · cases h
    exact ⟨hA.1, hA.2.1, fun x y hxy => by simp [hA.2.2 x y hxy, hB.2.2 x y hxy]⟩
  · simp at h

theorem addQ_rep_ok {fs : List ι} {A B : Mat K} {V W : Trace.Mat d K} (hA : Represents d fs A V) (hB : Represents d fs B W) :
    ∃ C, addQ A B = .ok C := by
  rw [addQ, if_pos ⟨hA.1.trans hB.1.symm, hA.2.1.trans hB.2.1.symm⟩]
  exact ⟨_, rfl⟩

omit [LinearOrder ι] [Fintype ι] in
theorem scal_rep [Fintype ι] [LinearOrder ι] {fs : List ι} {A : Mat K} {V : Trace.Mat d K} (hA : Represents d fs A V) (c : K) :
    Represents d fs (scalarMul c A) (c • V) :=
  ⟨hA.1, hA.2.1, fun x y hxy => by simp [scalarMul, hA.2.2 x y hxy]⟩

theorem adj_rep [StarRing K] {fs : List ι} {A : Mat K} {V : Trace.Mat d K} (hA : Represents d fs A V) :
    Represents d fs (Mat.adjoint A) V.conjTranspose :=
  ⟨hA.2.1, hA.1, fun x y hxy => by
    simp only [Mat.adjoint, Mat.elementWise, Mat.transpose, Matrix.conjTranspose_apply]
    rw [hA.2.2 y x fun i hi => (hxy i hi).symm]⟩

theorem sum_range_mul' (f : ℕ → K) (a b : ℕ) : ∑ k ∈ range (a * b), f k = ∑ i ∈ range a, ∑ j ∈ range b, f (i * b + j) := by
  induction a with
  | zero => simp
  | succ a ih => rw [Nat.succ_mul, Finset.sum_range_add, ih, Finset.sum_range_succ]

/-- a sum over all rows of the product space is a sum over configurations -/
theorem sum_idx : ∀ {fs : List ι}, fs.Nodup → ∀ (f : ℕ → K) (x : Cfg d),
    ∑ k ∈ range (fs.map d).prod, f k = ∑ z : Cfg d, if ∀ i ∉ fs, z i = x i then f (idx d fs z) else 0
  | [], _, f, x => by
    rw [Fintype.sum_eq_single x]
    · simp [idx]
    · intro z hz
      rw [if_neg]
      intro h
      exact hz (funext fun i => h i (by simp))
  | l :: t, hn, f, x => by
    rw [List.nodup_cons] at hn
    rw [List.map_cons, List.prod_cons, sum_range_mul', Finset.sum_range]
    have : ∀ i : Fin (d l), ∑ j ∈ range (t.map d).prod, f (i * (t.map d).prod + j) =
        ∑ z : Cfg d, if ∀ k ∉ t, z k = Function.update x l i k then f (i * (t.map d).prod + idx d t z) else 0 :=
      fun i => sum_idx hn.2 (fun j => f (i * (t.map d).prod + j)) (Function.update x l i)
    simp only [this]
    rw [Finset.sum_comm]
    refine Finset.sum_congr rfl fun z _ => ?_
    rw [Fintype.sum_eq_single (z l)]
    · have : (∀ k ∉ t, z k = Function.update x l (z l) k) ↔ ∀ i ∉ l :: t, z i = x i := by
        constructor
        · intro h i hi
          simp only [List.mem_cons, not_or] at hi
          rw [h i hi.2, Function.update_of_ne hi.1]
        · intro h k hk
          by_cases hkl : k = l
          · subst hkl; simp
          · rw [Function.update_of_ne hkl]
            exact h k (by simp [hkl, hk])
      simp only [this, idx]
    · intro i hi
      rw [if_neg]
      intro h
      have := h l hn.1
      rw [Function.update_self] at this
      exact hi this.symm

theorem dot_rep {fs : List ι} (hn : fs.Nodup) {A B C : Mat K} {V W : Trace.Mat d K} (hA : Represents d fs A V) (hB : Represents d fs B W)
    (hV : ActsOn fs.toFinset V) (h : dot A B = .ok C) : Represents d fs C (V * W) := by
  rw [dot] at h
  split at h
  · simp at h
  · cases h
    refine ⟨hA.1, hB.2.1, fun x y hxy => ?_⟩
    simp only [hA.2.1]
    rw [sum_idx hn _ x, Matrix.mul_apply]
    refine Finset.sum_congr rfl fun z _ => ?_
    split_ifs with hz
    · rw [hA.2.2 x z fun i hi => (hz i hi).symm, hB.2.2 z y fun i hi => (hz i hi).trans (hxy i hi)]
    · push Not at hz
      obtain ⟨i, hi, hne⟩ := hz
      rw [hV.1 x z i (by simpa using hi) (Ne.symm hne), zero_mul]

theorem dot_ket {fs : List ι} (hn : fs.Nodup) {A B C : Mat K} {V : Trace.Mat d K} {w : State.Vec d K} (hA : Represents d fs A V)
    (hB : RepresentsKet d fs B w) (hV : ActsOn fs.toFinset V) (h : dot A B = .ok C) : RepresentsKet d fs C (V.mulVec w) := by
  rw [dot] at h
  split at h
  · simp at h
  · cases h
    refine ⟨hA.1, hB.2.1, fun x => ?_⟩
    simp only [hA.2.1]
    rw [sum_idx hn _ x, Matrix.mulVec, dotProduct]
    refine Finset.sum_congr rfl fun z _ => ?_
    split_ifs with hz
    · rw [hA.2.2 x z fun i hi => (hz i hi).symm, hB.2.2 z]
    · push Not at hz
      obtain ⟨i, hi, hne⟩ := hz
      rw [hV.1 x z i (by simpa using hi) (Ne.symm hne), zero_mul]

theorem kron_ket {l : ι} {t : List ι} {A B : Mat K} {v w : State.Vec d K} (hA : RepresentsKet d [l] A v)
    (hB : RepresentsKet d t B w) : RepresentsKet d (l :: t) (kron A B) (fun x => v x * w x) := by
  obtain ⟨a1, a2, a3⟩ := hA
  obtain ⟨b1, b2, b3⟩ := hB
  refine ⟨by simp [kron, a1, b1], by simp [kron, a2, b2], fun x => ?_⟩
  simp only [kron, b1, b2]
  rw [idx_div, idx_mod, ← b3 x, ← a3 x, idx_single]

end QNET.Convert
