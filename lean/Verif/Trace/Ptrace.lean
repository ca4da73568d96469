import Mathlib.LinearAlgebra.Matrix.ConjTranspose
import Mathlib.Data.Finset.Piecewise
import Mathlib.Data.Fintype.BigOperators
import Mathlib.Algebra.Star.BigOperators

/-!
# Specification: operators on a product of finite-dimensional spaces, locality and the partial trace

No code of QNET is modelled here. An operator is a matrix indexed by configurations (one basis index for each local space).
-/

namespace QNET.Trace

open Matrix

variable {ι : Type} [Fintype ι] [DecidableEq ι] {d : ι → ℕ} {K : Type} [CommRing K]

/-- one basis index for every local space -/
abbrev Cfg (d : ι → ℕ) := ∀ i, Fin (d i)

/-- operators on the product of all local spaces -/
abbrev Mat (d : ι → ℕ) (K : Type) := Matrix (Cfg d) (Cfg d) K

/-- the operator acts on the local spaces in `S` only: it never changes an index outside of `S`, and its entries do not depend on
the indices outside of `S` -/
def ActsOn (S : Finset ι) (M : Mat d K) : Prop :=
  (∀ x y, ∀ i ∉ S, x i ≠ y i → M x y = 0) ∧
  (∀ x y x' y', (∀ i ∈ S, x i = x' i ∧ y i = y' i) → (∀ i ∉ S, x i = y i) → (∀ i ∉ S, x' i = y' i) → M x y = M x' y')

/-- the partial trace over the local spaces in `H`, as an operator on the full product of spaces (the identity on `H`):
`⟨x| Tr_H M |y⟩ = Σ_h ⟨x_rest, h| M |y_rest, h⟩` if `x` and `y` agree on `H` -/
def ptr (H : Finset ι) (M : Mat d K) : Mat d K := fun x y =>
  if ∀ i ∈ H, x i = y i then ∑ z : Cfg d, if ∀ i ∉ H, z i = x i then M z (H.piecewise z y) else 0 else 0

/-- the partial trace over one local space -/
def ptr1 (i : ι) (M : Mat d K) : Mat d K := fun x y =>
  if x i = y i then ∑ k, M (Function.update x i k) (Function.update y i k) else 0

theorem ActsOn.congr {S : Finset ι} {M : Mat d K} (h : ActsOn S M) {x y x' y' : Cfg d}
    (h1 : ∀ i ∈ S, x i = x' i ∧ y i = y' i) (h2 : ∀ i ∉ S, (x i = y i ↔ x' i = y' i)) : M x y = M x' y' := by
  by_cases hc : ∀ i ∉ S, x i = y i
  · exact h.2 _ _ _ _ h1 hc fun i hi => (h2 i hi).mp (hc i hi)
  · push Not at hc
    obtain ⟨i, hi, hne⟩ := hc
    rw [h.1 x y i hi hne, h.1 x' y' i hi fun hh => hne ((h2 i hi).mpr hh)]

theorem ActsOn.mono {S T : Finset ι} {M : Mat d K} (h : ActsOn S M) (hST : S ⊆ T) : ActsOn T M := by
  refine ⟨fun x y i hi => h.1 x y i fun hs => hi (hST hs), fun x y x' y' h1 h2 h3 => h.congr (fun i hi => h1 i (hST hi)) fun i hi => ?_⟩
  by_cases ht : i ∈ T
  · rw [(h1 i ht).1, (h1 i ht).2]
  · simp [h2 i ht, h3 i ht]

theorem actsOn_zero (S : Finset ι) : ActsOn S (0 : Mat d K) := ⟨fun _ _ _ _ _ => rfl, fun _ _ _ _ _ _ _ => rfl⟩

theorem actsOn_one (S : Finset ι) : ActsOn S (1 : Mat d K) := by
  refine ⟨fun x y i _ hne => Matrix.one_apply_ne fun h => hne (by rw [h]), fun x y x' y' h1 h2 h3 => ?_⟩
  have : x = y ↔ x' = y' := by
    constructor
    · intro h
      funext i
      by_cases hi : i ∈ S
      · rw [← (h1 i hi).1, ← (h1 i hi).2, h]
      · exact h3 i hi
    · intro h
      funext i
      by_cases hi : i ∈ S
      · rw [(h1 i hi).1, (h1 i hi).2, h]
      · exact h2 i hi
  simp [Matrix.one_apply, this]

theorem ActsOn.add {S : Finset ι} {M N : Mat d K} (h : ActsOn S M) (h' : ActsOn S N) : ActsOn S (M + N) :=
  ⟨fun x y i hi hne => by simp [h.1 x y i hi hne, h'.1 x y i hi hne],
   fun x y x' y' h1 h2 h3 => by simp [h.2 x y x' y' h1 h2 h3, h'.2 x y x' y' h1 h2 h3]⟩

theorem ActsOn.smul {S : Finset ι} {M : Mat d K} (h : ActsOn S M) (c : K) : ActsOn S (c • M) :=
  ⟨fun x y i hi hne => by simp [h.1 x y i hi hne], fun x y x' y' h1 h2 h3 => by simp [h.2 x y x' y' h1 h2 h3]⟩

theorem ActsOn.transpose {S : Finset ι} {M : Mat d K} (h : ActsOn S M) : ActsOn S Mᵀ :=
  ⟨fun x y i hi hne => h.1 y x i hi (Ne.symm hne),
   fun x y x' y' h1 h2 h3 => h.2 y x y' x' (fun i hi => ⟨(h1 i hi).2, (h1 i hi).1⟩) (fun i hi => (h2 i hi).symm)
    (fun i hi => (h3 i hi).symm)⟩

theorem ActsOn.star [StarRing K] {S : Finset ι} {M : Mat d K} (h : ActsOn S M) : ActsOn S Mᴴ :=
  ⟨fun x y i hi hne => by simp [Matrix.conjTranspose_apply, h.1 y x i hi (Ne.symm hne)],
   fun x y x' y' h1 h2 h3 => by
    simp only [Matrix.conjTranspose_apply]
    rw [h.2 y x y' x' (fun i hi => ⟨(h1 i hi).2, (h1 i hi).1⟩) (fun i hi => (h2 i hi).symm) (fun i hi => (h3 i hi).symm)]⟩

/-- a sum over all configurations of a function that vanishes unless the configuration agrees with `z0` outside of `S` may be
computed with any other outside -/
theorem sum_shift (S : Finset ι) (z0 z1 : Cfg d) (f g : Cfg d → K) (hf : ∀ z, ∀ j ∉ S, z j ≠ z0 j → f z = 0)
    (hg : ∀ z, ∀ j ∉ S, z j ≠ z1 j → g z = 0) (hfg : ∀ z, f (S.piecewise z z0) = g (S.piecewise z z1)) :
    ∑ z, f z = ∑ z, g z := by
  have pw : ∀ (z w : Cfg d), (∀ j ∉ S, z j = w j) → S.piecewise z w = z := by
    intro z w h
    funext j
    by_cases hj : j ∈ S
    · simp [hj]
    · simp [hj, h j hj]
  refine Finset.sum_bij_ne_zero (fun z _ _ => S.piecewise z z1) (fun _ _ _ => Finset.mem_univ _) ?_ ?_ ?_
  · intro a _ ha b _ hb hab
    have ea : ∀ j ∉ S, a j = z0 j := fun j hj => by by_contra h; exact ha (hf a j hj h)
    have eb : ∀ j ∉ S, b j = z0 j := fun j hj => by by_contra h; exact hb (hf b j hj h)
    funext j
    by_cases hj : j ∈ S
    · have := congrFun hab j
      simpa [hj] using this
    · rw [ea j hj, eb j hj]
  · intro b _ hb
    have eb : ∀ j ∉ S, b j = z1 j := fun j hj => by by_contra h; exact hb (hg b j hj h)
    refine ⟨S.piecewise b z0, Finset.mem_univ _, ?_, ?_⟩
    · rw [hfg, pw b z1 eb]
      exact hb
    · funext j
      by_cases hj : j ∈ S
      · simp [hj]
      · simp [hj, eb j hj]
  · intro a _ ha
    have ea : ∀ j ∉ S, a j = z0 j := fun j hj => by by_contra h; exact ha (hf a j hj h)
    rw [← hfg, pw a z0 ea]

theorem ActsOn.mul {S : Finset ι} {M N : Mat d K} (h : ActsOn S M) (h' : ActsOn S N) : ActsOn S (M * N) := by
  refine ⟨fun x y i hi hne => ?_, fun x y x' y' h1 h2 h3 => ?_⟩
  · rw [Matrix.mul_apply]
    refine Finset.sum_eq_zero fun z _ => ?_
    by_cases hz : x i = z i
    · rw [h'.1 z y i hi (hz ▸ hne), mul_zero]
    · rw [h.1 x z i hi hz, zero_mul]
  · rw [Matrix.mul_apply, Matrix.mul_apply]
    refine sum_shift S x x' _ _ ?_ ?_ ?_
    · intro z j hj hne
      rw [h.1 x z j hj (Ne.symm hne), zero_mul]
    · intro z j hj hne
      rw [h.1 x' z j hj (Ne.symm hne), zero_mul]
    · intro z
      congr 1
      · refine h.congr (fun i hi => ?_) fun i hi => ?_
        · simp [hi, h1 i hi]
        · simp [hi]
      · refine h'.congr (fun i hi => ?_) fun i hi => ?_
        · simp [hi, h1 i hi]
        · simp [hi, h2 i hi, h3 i hi]

/-- operators on disjoint sets of local spaces commute -/
theorem ActsOn.commute {S T : Finset ι} {M N : Mat d K} (h : ActsOn S M) (h' : ActsOn T N) (hd : Disjoint S T) :
    M * N = N * M := by
  ext x y
  have hT : ∀ i ∈ S, i ∉ T := fun i hi ht => Finset.disjoint_left.mp hd hi ht
  rw [Matrix.mul_apply, Matrix.mul_apply, Fintype.sum_eq_single (S.piecewise y x), Fintype.sum_eq_single (S.piecewise x y), mul_comm]
  · congr 1
    · refine h'.congr (fun i hi => ?_) fun i hi => ?_
      · have : i ∉ S := fun hs => hT i hs hi
        simp [this]
      · by_cases hs : i ∈ S <;> simp [hs]
    · refine h.congr (fun i hi => ?_) fun i hi => ?_
      · simp [hi]
      · simp [hi]
  · intro z hz
    obtain ⟨i, hi⟩ := Function.ne_iff.mp hz
    by_cases hs : i ∈ S
    · simp only [Finset.piecewise, hs, if_true] at hi
      rw [h'.1 x z i (hT i hs) (Ne.symm hi), zero_mul]
    · simp only [Finset.piecewise, hs, if_false] at hi
      rw [h.1 z y i hs hi, mul_zero]
  · intro z hz
    obtain ⟨i, hi⟩ := Function.ne_iff.mp hz
    by_cases hs : i ∈ S
    · simp only [Finset.piecewise, hs, if_true] at hi
      rw [h'.1 z y i (hT i hs) hi, mul_zero]
    · simp only [Finset.piecewise, hs, if_false] at hi
      rw [h.1 x z i hs (Ne.symm hi), zero_mul]

/-! ## one local space -/

theorem sum_update_free (l : ι) (z0 : Cfg d) (f : Cfg d → K) (hf : ∀ z, ∀ j, j ≠ l → z j ≠ z0 j → f z = 0) :
    ∑ z, f z = ∑ m, f (Function.update z0 l m) := by
  refine (Fintype.sum_of_injective (Function.update z0 l) (Function.update_injective z0 l) _ _ ?_ fun _ => rfl).symm
  intro z hz
  have : ∃ j, j ≠ l ∧ z j ≠ z0 j := by
    by_contra hh
    push Not at hh
    refine hz ⟨z l, ?_⟩
    funext j
    by_cases hj : j = l
    · subst hj; simp
    · simp [hj, hh j hj]
  obtain ⟨j, hj, hne⟩ := this
  exact hf z j hj hne

/-- cyclic invariance of the partial trace over `l`, for operators that share no other local space -/
theorem ptr1_cyclic {S T : Finset ι} {P Q : Mat d K} (hP : ActsOn S P) (hQ : ActsOn T Q) (l : ι)
    (hd : ∀ j ∈ S, j ≠ l → j ∉ T) : ptr1 l (P * Q) = ptr1 l (Q * P) := by
  ext x y
  unfold ptr1
  by_cases hxy : x l = y l
  swap
  · simp [hxy]
  rw [if_pos hxy, if_pos hxy]
  have e1 : ∀ k, (P * Q) (Function.update x l k) (Function.update y l k) = ∑ m,
      P (Function.update x l k) (Function.update (S.piecewise y x) l m) *
        Q (Function.update (S.piecewise y x) l m) (Function.update y l k) := by
    intro k
    rw [Matrix.mul_apply]
    refine sum_update_free l (S.piecewise y x) (fun z => P (Function.update x l k) z * Q z (Function.update y l k)) ?_
    intro z j hj hne
    by_cases hs : j ∈ S
    · simp only [Finset.piecewise, hs, if_true] at hne
      rw [hQ.1 z _ j (hd j hs hj) (by simpa [hj] using hne), mul_zero]
    · simp only [Finset.piecewise, hs, if_false] at hne
      rw [hP.1 _ z j hs (by simpa [hj] using Ne.symm hne), zero_mul]
  have e2 : ∀ k, (Q * P) (Function.update x l k) (Function.update y l k) = ∑ m,
      Q (Function.update x l k) (Function.update (S.piecewise x y) l m) *
        P (Function.update (S.piecewise x y) l m) (Function.update y l k) := by
    intro k
    rw [Matrix.mul_apply]
    refine sum_update_free l (S.piecewise x y) (fun z => Q (Function.update x l k) z * P z (Function.update y l k)) ?_
    intro z j hj hne
    by_cases hs : j ∈ S
    · simp only [Finset.piecewise, hs, if_true] at hne
      rw [hQ.1 _ z j (hd j hs hj) (by simpa [hj] using Ne.symm hne), zero_mul]
    · simp only [Finset.piecewise, hs, if_false] at hne
      rw [hP.1 z _ j hs (by simpa [hj] using hne), mul_zero]
  simp only [e1, e2]
  rw [Finset.sum_comm]
  refine Finset.sum_congr rfl fun m _ => Finset.sum_congr rfl fun k _ => ?_
  rw [mul_comm]
  congr 1
  · refine hQ.congr (fun i hi => ?_) fun i hi => ?_
    · by_cases hil : i = l
      · subst hil; simp
      · have : i ∉ S := fun hs => hd i hs hil hi
        simp [hil, this]
    · by_cases hil : i = l
      · subst hil; simp
      · by_cases hs : i ∈ S <;> simp [hil, hs]
  · refine hP.congr (fun i hi => ?_) fun i hi => ?_
    · by_cases hil : i = l
      · subst hil; simp
      · simp [hil, hi]
    · by_cases hil : i = l
      · subst hil; simp
      · simp [hil, hi]

theorem sum_update_shift (i : ι) (k k' : Fin (d i)) (f g : Cfg d → K) (hf : ∀ z, z i ≠ k → f z = 0)
    (hg : ∀ z, z i ≠ k' → g z = 0) (hfg : ∀ z, f (Function.update z i k) = g (Function.update z i k')) :
    ∑ z, f z = ∑ z, g z := by
  by_cases hne : Nonempty (Cfg d)
  swap
  · rw [not_nonempty_iff] at hne
    simp
  obtain ⟨z⟩ := hne
  have key : ∀ (z : Cfg d) (k : Fin (d i)), ({i}ᶜ : Finset ι).piecewise z (Function.update z i k) = Function.update z i k := by
    intro z k
    funext j
    by_cases hj : j = i
    · subst hj; simp
    · simp [hj]
  have key2 : ∀ (w z : Cfg d) (k : Fin (d i)), ({i}ᶜ : Finset ι).piecewise w (Function.update z i k) = Function.update w i k := by
    intro w z k
    funext j
    by_cases hj : j = i
    · subst hj; simp
    · simp [hj]
  refine sum_shift {i}ᶜ (Function.update z i k) (Function.update z i k') f g ?_ ?_ ?_
  · intro w j hj hw
    have : j = i := by simpa using hj
    subst this
    exact hf w (by simpa using hw)
  · intro w j hj hw
    have : j = i := by simpa using hj
    subst this
    exact hg w (by simpa using hw)
  · intro w
    rw [key2, key2, hfg]

/-- an operator that does not act on `i` may be pulled out of the trace over `i` to the left -/
theorem ptr1_mul_left {S : Finset ι} {A : Mat d K} (hA : ActsOn S A) {i : ι} (hi : i ∉ S) (B : Mat d K) :
    ptr1 i (A * B) = A * ptr1 i B := by
  ext x y
  rw [Matrix.mul_apply]
  unfold ptr1
  by_cases hxy : x i = y i
  · rw [if_pos hxy]
    have e : ∀ w, A x w * (if w i = y i then ∑ k, B (Function.update w i k) (Function.update y i k) else 0) =
        ∑ k, A x w * (if w i = y i then B (Function.update w i k) (Function.update y i k) else 0) := by
      intro w
      split
      · rw [Finset.mul_sum]
      · simp
    simp only [e]
    rw [Finset.sum_comm]
    refine Finset.sum_congr rfl fun k _ => ?_
    rw [Matrix.mul_apply]
    refine sum_update_shift i k (x i) _ _ ?_ ?_ ?_
    · intro z hz
      rw [hA.1 _ z i hi (by simpa using Ne.symm hz), zero_mul]
    · intro z hz
      rw [hA.1 x z i hi (Ne.symm hz), zero_mul]
    · intro z
      simp only [Function.update_self, hxy, if_true, Function.update_idem]
      congr 1
      refine hA.congr (fun j hj => ?_) fun j hj => ?_
      · have : j ≠ i := fun h => hi (h ▸ hj)
        simp [this]
      · by_cases hji : j = i
        · subst hji; simp [hxy]
        · simp [hji]
  · rw [if_neg hxy]
    symm
    refine Finset.sum_eq_zero fun w _ => ?_
    by_cases hw : x i = w i
    · rw [if_neg (hw ▸ hxy), mul_zero]
    · rw [hA.1 x w i hi hw, zero_mul]

theorem ptr1_add (i : ι) (A B : Mat d K) : ptr1 i (A + B) = ptr1 i A + ptr1 i B := by
  ext x y
  simp only [ptr1, Matrix.add_apply]
  split <;> simp [Finset.sum_add_distrib]

theorem ptr1_smul (i : ι) (c : K) (A : Mat d K) : ptr1 i (c • A) = c • ptr1 i A := by
  ext x y
  simp only [ptr1, Matrix.smul_apply, smul_eq_mul]
  split <;> simp [Finset.mul_sum]

theorem ptr1_zero (i : ι) : ptr1 i (0 : Mat d K) = 0 := by
  ext x y
  simp [ptr1]

theorem ptr1_star [StarRing K] (i : ι) (A : Mat d K) : ptr1 i Aᴴ = (ptr1 i A)ᴴ := by
  ext x y
  simp only [ptr1, Matrix.conjTranspose_apply, eq_comm (a := x i)]
  split <;> simp [star_sum]

theorem ptr1_one (i : ι) : ptr1 i (1 : Mat d K) = (d i : K) • 1 := by
  ext x y
  simp only [ptr1, Matrix.smul_apply, smul_eq_mul, Matrix.one_apply]
  by_cases hxy : x = y
  · subst hxy; simp
  · rw [if_neg hxy, mul_zero]
    split
    · rename_i h
      refine Finset.sum_eq_zero fun k _ => if_neg fun hh => hxy ?_
      funext j
      by_cases hj : j = i
      · subst hj; exact h
      · simpa [hj] using congrFun hh j
    · rfl

/-- an operator that does not act on `i`: the trace over `i` is the dimension times the operator -/
theorem ptr1_of_not_mem {S : Finset ι} {A : Mat d K} (hA : ActsOn S A) {i : ι} (hi : i ∉ S) : ptr1 i A = (d i : K) • A := by
  have := ptr1_mul_left hA hi 1
  rw [mul_one, ptr1_one] at this
  rw [this, Matrix.mul_smul, mul_one]

theorem ActsOn.ptr1 {S : Finset ι} {M : Mat d K} (h : ActsOn S M) (i : ι) : ActsOn (S \ {i}) (ptr1 i M) := by
  refine ⟨fun x y j hj hne => ?_, fun x y x' y' h1 h2 h3 => ?_⟩
  · unfold Trace.ptr1
    by_cases hji : j = i
    · subst hji
      rw [if_neg hne]
    · split
      · refine Finset.sum_eq_zero fun k _ => h.1 _ _ j ?_ (by simpa [hji] using hne)
        intro hs
        exact hj (by simp [hs, hji])
      · rfl
  · unfold Trace.ptr1
    rw [if_pos (h2 i (by simp)), if_pos (h3 i (by simp))]
    refine Finset.sum_congr rfl fun k _ => h.congr (fun j hj => ?_) fun j hj => ?_
    · by_cases hji : j = i
      · subst hji; simp
      · simp [hji, h1 j (by simp [hj, hji])]
    · by_cases hji : j = i
      · subst hji; simp
      · simp [hji, h2 j (by simp [hj]), h3 j (by simp [hj])]

/-! ## several local spaces -/

theorem ptr_empty (M : Mat d K) : ptr ∅ M = M := by
  ext x y
  unfold ptr
  rw [if_pos (by simp), Fintype.sum_eq_single x]
  · simp
  · intro z hz
    rw [if_neg]
    intro hh
    exact hz (funext fun i => hh i (by simp))

/-- the trace over several local spaces is the iterated trace over each of them -/
theorem ptr_insert {H : Finset ι} {i : ι} (hi : i ∉ H) (M : Mat d K) : ptr (insert i H) M = ptr H (ptr1 i M) := by
  ext x y
  unfold ptr ptr1
  by_cases hH : ∀ j ∈ H, x j = y j
  swap
  · rw [if_neg hH, if_neg]
    intro hh
    exact hH fun j hj => hh j (Finset.mem_insert_of_mem hj)
  rw [if_pos hH]
  by_cases hxi : x i = y i
  swap
  · rw [if_neg]
    · symm
      refine Finset.sum_eq_zero fun z _ => ?_
      split
      · rename_i hz
        rw [if_neg]
        rw [hz i hi]
        simpa [hi] using hxi
      · rfl
    · intro hh
      exact hxi (hh i (Finset.mem_insert_self _ _))
  rw [if_pos (by intro j hj; rcases Finset.mem_insert.mp hj with rfl | hj; exacts [hxi, hH j hj])]
  -- both sides: sum over the index of `i` first
  have eR : ∀ z : Cfg d, (if ∀ j ∉ H, z j = x j then (if z i = (H.piecewise z y) i then
      ∑ k, M (Function.update z i k) (Function.update (H.piecewise z y) i k) else 0) else 0) =
      ∑ k, (if ∀ j ∉ H, z j = x j then M (Function.update z i k) (Function.update (H.piecewise z y) i k) else 0) := by
    intro z
    by_cases hz : ∀ j ∉ H, z j = x j
    · rw [if_pos hz, if_pos (by rw [hz i hi]; simpa [hi] using hxi)]
      exact Finset.sum_congr rfl fun k _ => (if_pos hz).symm
    · rw [if_neg hz]
      simp [hz]
  simp only [eR]
  rw [Finset.sum_comm]
  have eL : ∀ z : Cfg d, (if ∀ j ∉ insert i H, z j = x j then M z ((insert i H).piecewise z y) else 0) =
      ∑ k, (if z i = k then (if ∀ j ∉ insert i H, z j = x j then M z ((insert i H).piecewise z y) else 0) else 0) := by
    intro z
    simp
  rw [Finset.sum_congr rfl fun z _ => eL z, Finset.sum_comm]
  refine Finset.sum_congr rfl fun k _ => ?_
  refine sum_update_shift i k (x i) _ _ ?_ ?_ ?_
  · intro z hz
    rw [if_neg hz]
  · intro z hz
    rw [if_neg]
    intro hh
    exact hz (hh i hi)
  · intro z
    rw [if_pos (by simp)]
    have hc : (∀ j ∉ insert i H, Function.update z i k j = x j) ↔ (∀ j ∉ H, Function.update z i (x i) j = x j) := by
      constructor
      · intro hh j hj
        by_cases hji : j = i
        · subst hji; simp
        · have := hh j (by simp [hji, hj])
          simpa [hji] using this
      · intro hh j hj
        rw [Finset.mem_insert, not_or] at hj
        have := hh j hj.2
        simpa [hj.1] using this
    by_cases h : ∀ j ∉ H, Function.update z i (x i) j = x j
    · rw [if_pos h, if_pos (hc.mpr h)]
      congr 1
      · simp
      · funext j
        by_cases hji : j = i
        · subst hji; simp
        · by_cases hj : j ∈ H <;> simp [hji, hj]
    · rw [if_neg h, if_neg (fun hh => h (hc.mp hh))]

theorem ptr_singleton (i : ι) (M : Mat d K) : ptr {i} M = ptr1 i M := by
  have := ptr_insert (H := ∅) (i := i) (by simp) M
  rw [ptr_empty] at this
  simpa using this

theorem ptr_induction {H : Finset ι} {p : (Mat d K → Mat d K) → Prop} (h0 : p id)
    (h1 : ∀ (i : ι) (f : Mat d K → Mat d K), p f → p (f ∘ ptr1 i)) : p (ptr H) := by
  induction H using Finset.induction_on with
  | empty =>
    have : (ptr ∅ : Mat d K → Mat d K) = id := funext ptr_empty
    rw [this]; exact h0
  | insert i H hi ih =>
    have : (ptr (insert i H) : Mat d K → Mat d K) = ptr H ∘ ptr1 i := funext (ptr_insert hi)
    rw [this]; exact h1 i _ ih

theorem ptr_add (H : Finset ι) (A B : Mat d K) : ptr H (A + B) = ptr H A + ptr H B := by
  refine ptr_induction (p := fun f => ∀ A B, f (A + B) = f A + f B) (fun _ _ => rfl) ?_ A B
  intro i f hf A B
  simp [ptr1_add, hf]

theorem ptr_smul (H : Finset ι) (c : K) (A : Mat d K) : ptr H (c • A) = c • ptr H A := by
  refine ptr_induction (p := fun f => ∀ A, f (c • A) = c • f A) (fun _ => rfl) ?_ A
  intro i f hf A
  simp [ptr1_smul, hf]

theorem ptr_zero (H : Finset ι) : ptr H (0 : Mat d K) = 0 := by
  refine ptr_induction (p := fun f => f 0 = 0) rfl ?_
  intro i f hf
  simp [ptr1_zero, hf]

theorem ptr_star [StarRing K] (H : Finset ι) (A : Mat d K) : ptr H Aᴴ = (ptr H A)ᴴ := by
  refine ptr_induction (p := fun f => ∀ A, f Aᴴ = (f A)ᴴ) (fun _ => rfl) ?_ A
  intro i f hf A
  simp [ptr1_star, hf]

theorem ptr_one (H : Finset ι) : ptr H (1 : Mat d K) = ((∏ i ∈ H, d i : ℕ) : K) • 1 := by
  induction H using Finset.induction_on with
  | empty => simp [ptr_empty]
  | insert i H hi ih =>
    rw [ptr_insert hi, ptr1_one, ptr_smul, ih, Finset.prod_insert hi, smul_smul]
    push_cast
    rfl

/-- `m` as an operator on the local space `l` -/
def embed (l : ι) (m : Matrix (Fin (d l)) (Fin (d l)) K) : Mat d K := fun x y => if ∀ j, j ≠ l → x j = y j then m (x l) (y l) else 0

theorem embed_actsOn (l : ι) (m : Matrix (Fin (d l)) (Fin (d l)) K) : ActsOn {l} (embed l m) := by
  refine ⟨fun x y i hi hne => if_neg fun h => hne (h i (by simpa using hi)), fun x y x' y' h1 h2 h3 => ?_⟩
  unfold embed
  rw [if_pos fun j hj => h2 j (by simpa using hj), if_pos fun j hj => h3 j (by simpa using hj), (h1 l (by simp)).1, (h1 l (by simp)).2]

theorem embed_mul (l : ι) (m n : Matrix (Fin (d l)) (Fin (d l)) K) : embed l m * embed l n = embed l (m * n) := by
  ext x y
  rw [Matrix.mul_apply, sum_update_free l x]
  · unfold embed
    by_cases h : ∀ j, j ≠ l → x j = y j
    · rw [if_pos h, Matrix.mul_apply]
      refine Finset.sum_congr rfl fun k _ => ?_
      rw [if_pos fun j hj => by simp [hj], if_pos fun j hj => by simp [hj, h j hj]]
      simp
    · rw [if_neg h]
      refine Finset.sum_eq_zero fun k _ => ?_
      have hn : ¬ ∀ j, j ≠ l → Function.update x l k j = y j := fun hh => h fun j hj => by
        have := hh j hj
        rwa [Function.update_of_ne hj] at this
      rw [if_neg hn, mul_zero]
  · intro z j hj hne
    rw [embed, if_neg fun h => hne (h j hj).symm, zero_mul]

/-- the trace of an operator on a single local space is a multiple of the identity -/
theorem ptr1_embed (l : ι) (m : Matrix (Fin (d l)) (Fin (d l)) K) : ptr1 l (embed l m) = (∑ k, m k k) • (1 : Mat d K) := by
  ext x y
  simp only [ptr1, embed, Matrix.smul_apply, smul_eq_mul, Matrix.one_apply]
  by_cases hxy : x = y
  · subst hxy
    simp
  · rw [if_neg hxy, mul_zero]
    split
    · rename_i h
      refine Finset.sum_eq_zero fun k _ => if_neg fun hh => hxy ?_
      funext j
      by_cases hj : j = l
      · subst hj; exact h
      · simpa [hj] using hh j hj
    · rfl

end QNET.Trace
