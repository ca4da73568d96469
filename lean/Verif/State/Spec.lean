import Verif.Trace.Ptrace
import Mathlib.Data.Matrix.Mul
import Mathlib.Tactic.Ring

/-!
# Specification: states of a product of finite-dimensional spaces

No code of QNET is modelled here. There is one basis index for every local space `i : ι` (`Cfg d`). A state of the local spaces in `S`
is a function of the configuration that depends on the indices in `S` only (`DependsOn S`). Then the tensor product of states of disjoint
spaces is the pointwise product; an operator on the product of all spaces (`Verif/Trace/Ptrace.lean`) acts by `Matrix.mulVec`; the inner
product over `S` sums over the indices in `S`.
-/

namespace QNET.State

open Matrix QNET.Trace

variable {ι : Type} [Fintype ι] [DecidableEq ι] {d : ι → ℕ} {K : Type} [CommRing K]

/-- (unnormalised) wave functions -/
abbrev Vec (d : ι → ℕ) (K : Type) := Cfg d → K

/-- the wave function is one of the local spaces in `S` -/
def DependsOn (S : Finset ι) (f : Vec d K) : Prop := ∀ x y : Cfg d, (∀ i ∈ S, x i = y i) → f x = f y

/-- the inner product over the local spaces `S`: antilinear in the first argument. For functions that depend on `S` only the reference
configuration `x` does not matter (`inner_free`). -/
def inner [StarRing K] (S : Finset ι) (x : Cfg d) (f g : Vec d K) : K :=
  ∑ z : Cfg d, if ∀ i ∉ S, z i = x i then star (f z) * g z else 0

/-- the operator `|f><g|` on the local spaces `S` (the identity on the others) -/
def outer [StarRing K] (S : Finset ι) (f g : Vec d K) : Mat d K :=
  Matrix.of fun x y => if ∀ i ∉ S, x i = y i then f x * star (g y) else 0

/-- the basis state `|n>` of the local space `l` -/
def basisVec (n : ℕ) (l : ι) : Vec d K := fun x => if (x l : ℕ) = n then 1 else 0

theorem DependsOn.mono {S T : Finset ι} {f : Vec d K} (h : DependsOn S f) (hST : S ⊆ T) : DependsOn T f :=
  fun x y hxy => h x y fun i hi => hxy i (hST hi)

theorem dependsOn_const (S : Finset ι) (c : K) : DependsOn S (fun _ : Cfg d => c) := fun _ _ _ => rfl
theorem dependsOn_zero (S : Finset ι) : DependsOn S (0 : Vec d K) := fun _ _ _ => rfl
theorem dependsOn_one (S : Finset ι) : DependsOn S (1 : Vec d K) := fun _ _ _ => rfl

theorem DependsOn.add {S : Finset ι} {f g : Vec d K} (h : DependsOn S f) (h' : DependsOn S g) : DependsOn S (f + g) :=
  fun x y hxy => by simp [h x y hxy, h' x y hxy]

theorem DependsOn.mul {S : Finset ι} {f g : Vec d K} (h : DependsOn S f) (h' : DependsOn S g) : DependsOn S (f * g) :=
  fun x y hxy => by simp [h x y hxy, h' x y hxy]

theorem DependsOn.smul {S : Finset ι} {f : Vec d K} (h : DependsOn S f) (c : K) : DependsOn S (c • f) :=
  fun x y hxy => by simp [h x y hxy]

theorem basisVec_dep (n : ℕ) (l : ι) : DependsOn {l} (basisVec n l : Vec d K) :=
  fun x y hxy => by simp [basisVec, hxy l (by simp)]

theorem DependsOn.mulVec {S T : Finset ι} {M : Mat d K} {f : Vec d K} (hM : ActsOn S M) (hf : DependsOn T f) (hST : S ⊆ T) :
    DependsOn T (M *ᵥ f) := by
  intro x y hxy
  refine sum_shift T x y _ _ ?_ ?_ ?_
  · intro z j hj hne
    show M x z * f z = 0
    rw [hM.1 x z j (fun h => hj (hST h)) (Ne.symm hne), zero_mul]
  · intro z j hj hne
    show M y z * f z = 0
    rw [hM.1 y z j (fun h => hj (hST h)) (Ne.symm hne), zero_mul]
  · intro z
    show M x _ * f _ = M y _ * f _
    congr 1
    · refine (hM.mono hST).congr (fun i hi => ?_) fun i hi => ?_
      · simp [hi, hxy i hi]
      · simp [hi]
    · exact hf _ _ fun i hi => by simp [hi]

/-- an operator acts on the factor on its space -/
theorem mulVec_mul {S T : Finset ι} {M : Mat d K} {f g : Vec d K} (hM : ActsOn S M) (hg : DependsOn T g) (hd : Disjoint S T) :
    M *ᵥ (f * g) = (M *ᵥ f) * g := by
  funext x
  simp only [mulVec, dotProduct, Pi.mul_apply, Finset.sum_mul]
  refine Finset.sum_congr rfl fun z _ => ?_
  by_cases h : ∀ i ∉ S, x i = z i
  · rw [hg z x fun i hi => (h i fun hs => Finset.disjoint_left.mp hd hs hi).symm, mul_assoc]
  · push Not at h
    obtain ⟨i, hi, hne⟩ := h
    rw [hM.1 x z i hi hne]
    simp

/-! ## the inner product -/

section star
variable [StarRing K]

theorem inner_free {S : Finset ι} {f g : Vec d K} (hf : DependsOn S f) (hg : DependsOn S g) (x y : Cfg d) :
    inner S x f g = inner S y f g := by
  refine sum_shift S x y _ _ ?_ ?_ ?_
  · intro z j hj hne
    rw [if_neg fun h => hne (h j hj)]
  · intro z j hj hne
    rw [if_neg fun h => hne (h j hj)]
  · intro z
    rw [if_pos fun i hi => by simp [hi], if_pos fun i hi => by simp [hi]]
    rw [hf _ (S.piecewise z y) fun i hi => by simp [hi], hg _ (S.piecewise z y) fun i hi => by simp [hi]]

theorem inner_zero_left (S : Finset ι) (x : Cfg d) (g : Vec d K) : inner S x 0 g = 0 := by simp [inner]
theorem inner_zero_right (S : Finset ι) (x : Cfg d) (f : Vec d K) : inner S x f 0 = 0 := by simp [inner]

theorem inner_smul_left (S : Finset ι) (x : Cfg d) (c : K) (f g : Vec d K) : inner S x (c • f) g = star c * inner S x f g := by
  rw [inner, inner, Finset.mul_sum]
  refine Finset.sum_congr rfl fun z _ => ?_
  split
  · simp only [Pi.smul_apply, smul_eq_mul, star_mul']
    ring
  · simp

theorem inner_smul_right (S : Finset ι) (x : Cfg d) (c : K) (f g : Vec d K) : inner S x f (c • g) = c * inner S x f g := by
  rw [inner, inner, Finset.mul_sum]
  refine Finset.sum_congr rfl fun z _ => ?_
  split
  · simp only [Pi.smul_apply, smul_eq_mul]
    ring
  · simp

theorem inner_star (S : Finset ι) (x : Cfg d) (f g : Vec d K) : star (inner S x f g) = inner S x g f := by
  rw [inner, inner, star_sum]
  refine Finset.sum_congr rfl fun z _ => ?_
  split
  · simp [mul_comm]
  · simp

/-- an operator is moved to the other side as its adjoint -/
theorem inner_mulVec {S T : Finset ι} {M : Mat d K} (hM : ActsOn T M) (hTS : T ⊆ S) (x : Cfg d) (f g : Vec d K) :
    inner S x (M *ᵥ f) g = inner S x f (Mᴴ *ᵥ g) := by
  simp only [inner, mulVec, dotProduct, conjTranspose_apply, star_sum, star_mul', Finset.sum_mul, Finset.mul_sum]
  have h0 : ∀ z w : Cfg d, (∀ i ∉ S, z i = x i) → ¬ (∀ i ∉ S, w i = x i) → M z w = 0 ∧ M w z = 0 := by
    intro z w hz hw
    push Not at hw
    obtain ⟨i, hi, hne⟩ := hw
    have hT : i ∉ T := fun h => hi (hTS h)
    have : z i ≠ w i := by rw [hz i hi]; exact Ne.symm hne
    exact ⟨hM.1 z w i hT this, hM.1 w z i hT (Ne.symm this)⟩
  have e1 : ∀ z : Cfg d, (if ∀ i ∉ S, z i = x i then ∑ w, star (M z w) * star (f w) * g z else 0) =
      ∑ w, if (∀ i ∉ S, z i = x i) ∧ (∀ i ∉ S, w i = x i) then star (M z w) * star (f w) * g z else 0 := by
    intro z
    by_cases hz : ∀ i ∉ S, z i = x i
    · rw [if_pos hz]
      refine Finset.sum_congr rfl fun w _ => ?_
      by_cases hw : ∀ i ∉ S, w i = x i
      · rw [if_pos ⟨hz, hw⟩]
      · rw [if_neg fun h => hw h.2, (h0 z w hz hw).1]; simp
    · rw [if_neg hz]
      exact (Finset.sum_eq_zero fun w _ => if_neg fun h => hz h.1).symm
  have e2 : ∀ w : Cfg d, (if ∀ i ∉ S, w i = x i then ∑ z, star (f w) * (star (M z w) * g z) else 0) =
      ∑ z, if (∀ i ∉ S, z i = x i) ∧ (∀ i ∉ S, w i = x i) then star (M z w) * star (f w) * g z else 0 := by
    intro w
    by_cases hw : ∀ i ∉ S, w i = x i
    · rw [if_pos hw]
      refine Finset.sum_congr rfl fun z _ => ?_
      by_cases hz : ∀ i ∉ S, z i = x i
      · rw [if_pos ⟨hz, hw⟩]; ring
      · rw [if_neg fun h => hz h.1, (h0 w z hw hz).2]; simp
    · rw [if_neg hw]
      exact (Finset.sum_eq_zero fun z _ => if_neg fun h => hw h.2).symm
  rw [Finset.sum_congr rfl fun z _ => e1 z, Finset.sum_congr rfl fun w _ => e2 w, Finset.sum_comm]

theorem inner_basis (x : Cfg d) {n m : ℕ} {l : ι} (hn : n < d l) : inner {l} x (basisVec n l : Vec d K) (basisVec m l) = if n = m then 1 else 0 := by
  rw [inner, Fintype.sum_eq_single (Function.update x l ⟨n, hn⟩)]
  · rw [if_pos fun i hi => by simp [Finset.mem_singleton.not.mp hi]]
    by_cases h : n = m <;> simp [basisVec, h]
  · intro z hz
    split
    · rename_i h
      have : (z l : ℕ) ≠ n := by
        intro hh
        apply hz
        funext i
        by_cases hi : i = l
        · subst hi
          simp only [Function.update_self]
          exact Fin.ext hh
        · rw [Function.update_of_ne hi]
          exact h i (by simpa using hi)
      simp [basisVec, this]
    · rfl

/-- the inner product of product states is the product of the inner products -/
theorem inner_tensor {S T : Finset ι} (hd : Disjoint S T) (x : Cfg d) {f f' g g' : Vec d K} (hf : DependsOn S f) (hf' : DependsOn S f')
    (hg : DependsOn T g) (hg' : DependsOn T g') : inner (S ∪ T) x (f * g) (f' * g') = inner S x f f' * inner T x g g' := by
  have hTS : ∀ i ∈ T, i ∉ S := fun i hi hs => Finset.disjoint_left.mp hd hs hi
  symm
  rw [inner, inner, inner, Finset.sum_mul_sum, ← Finset.sum_product']
  refine Finset.sum_bij_ne_zero (fun p _ _ => S.piecewise p.1 p.2) (fun _ _ _ => Finset.mem_univ _) ?_ ?_ ?_
  · rintro ⟨a, a'⟩ _ ha ⟨b, b'⟩ _ hb hab
    have h1 : ∀ i ∉ S, a i = x i := by by_contra h; simp [if_neg h] at ha
    have h2 : ∀ i ∉ T, a' i = x i := by by_contra h; simp [if_neg h] at ha
    have h3 : ∀ i ∉ S, b i = x i := by by_contra h; simp [if_neg h] at hb
    have h4 : ∀ i ∉ T, b' i = x i := by by_contra h; simp [if_neg h] at hb
    have e : a = b ∧ a' = b' := by
      constructor <;> funext i <;> have hi := congrFun hab i <;> by_cases hs : i ∈ S <;> simp [hs] at hi
      · exact hi
      · rw [h1 i hs, h3 i hs]
      · have : i ∉ T := fun ht => hTS i ht hs
        rw [h2 i this, h4 i this]
      · exact hi
    rw [e.1, e.2]
  · intro b _ hb
    have h1 : ∀ i ∉ S ∪ T, b i = x i := by by_contra h; rw [if_neg h] at hb; exact hb rfl
    refine ⟨(S.piecewise b x, T.piecewise b x), by simp, ?_, ?_⟩
    · rw [if_pos fun i hi => by simp [hi], if_pos fun i hi => by simp [hi]]
      rw [if_pos h1] at hb
      simp only [Pi.mul_apply] at hb
      rw [hf _ b fun i hi => by simp [hi], hf' _ b fun i hi => by simp [hi], hg _ b fun i hi => by simp [hi],
        hg' _ b fun i hi => by simp [hi]]
      intro h
      apply hb
      rw [star_mul']
      have e : star (f b) * star (g b) * (f' b * g' b) = star (f b) * f' b * (star (g b) * g' b) := by ring
      rw [e, h]
    · funext i
      by_cases hs : i ∈ S
      · simp [hs]
      · by_cases ht : i ∈ T
        · simp [hs, ht]
        · simp [hs, ht, h1 i (by simp [hs, ht])]
  · rintro ⟨a, a'⟩ _ ha
    have h1 : ∀ i ∉ S, a i = x i := by by_contra h; simp [if_neg h] at ha
    have h2 : ∀ i ∉ T, a' i = x i := by by_contra h; simp [if_neg h] at ha
    have h3 : ∀ i ∉ S ∪ T, (S.piecewise a a' : Cfg d) i = x i := fun i hi => by
      simp only [Finset.mem_union, not_or] at hi
      simp [hi.1, h2 i hi.2]
    rw [if_pos h1, if_pos h2, if_pos h3]
    simp only [Pi.mul_apply]
    rw [hf (S.piecewise a a') a fun i hi => by simp [hi], hf' (S.piecewise a a') a fun i hi => by simp [hi],
      hg (S.piecewise a a') a' fun i hi => by simp [hTS i hi], hg' (S.piecewise a a') a' fun i hi => by simp [hTS i hi], star_mul']
    ring

/-! ## the outer product -/

theorem outer_actsOn {S : Finset ι} {f g : Vec d K} (hf : DependsOn S f) (hg : DependsOn S g) : ActsOn S (outer S f g) := by
  refine ⟨fun x y i hi hne => ?_, fun x y x' y' h1 h2 h3 => ?_⟩
  · rw [outer, of_apply, if_neg fun h => hne (h i hi)]
  · simp only [outer, of_apply]
    rw [if_pos h2, if_pos h3, hf x x' fun i hi => (h1 i hi).1, hg y y' fun i hi => (h1 i hi).2]

theorem outer_zero_left (S : Finset ι) (g : Vec d K) : outer S 0 g = 0 := by ext x y; simp [outer]
theorem outer_zero_right (S : Finset ι) (f : Vec d K) : outer S f 0 = 0 := by ext x y; simp [outer]

theorem outer_smul_left (S : Finset ι) (c : K) (f g : Vec d K) : outer S (c • f) g = c • outer S f g := by
  ext x y
  simp only [outer, of_apply, Pi.smul_apply, smul_apply, smul_eq_mul]
  split <;> ring

theorem outer_smul_right (S : Finset ι) (c : K) (f g : Vec d K) : outer S f (c • g) = star c • outer S f g := by
  ext x y
  simp only [outer, of_apply, Pi.smul_apply, smul_apply, smul_eq_mul, star_mul']
  split <;> ring

theorem outer_star (S : Finset ι) (f g : Vec d K) : (outer S f g)ᴴ = outer S g f := by
  ext x y
  simp only [outer, of_apply, conjTranspose_apply]
  have : (∀ i ∉ S, y i = x i) ↔ ∀ i ∉ S, x i = y i := ⟨fun h i hi => (h i hi).symm, fun h i hi => (h i hi).symm⟩
  by_cases h : ∀ i ∉ S, x i = y i
  · rw [if_pos (this.mpr h), if_pos h]; simp [mul_comm]
  · rw [if_neg fun hh => h (this.mp hh), if_neg h, star_zero]

theorem outer_mulVec_left {S T : Finset ι} {M : Mat d K} (hM : ActsOn T M) (hTS : T ⊆ S) (f g : Vec d K) :
    outer S (M *ᵥ f) g = M * outer S f g := by
  ext x y
  simp only [outer, of_apply, mul_apply, mulVec, dotProduct]
  by_cases h : ∀ i ∉ S, x i = y i
  · rw [if_pos h, Finset.sum_mul]
    refine Finset.sum_congr rfl fun z _ => ?_
    by_cases hz : ∀ i ∉ S, z i = y i
    · rw [if_pos hz, mul_assoc]
    · rw [if_neg hz]
      push Not at hz
      obtain ⟨i, hi, hne⟩ := hz
      rw [hM.1 x z i (fun hh => hi (hTS hh)) (by rw [h i hi]; exact Ne.symm hne)]
      simp
  · rw [if_neg h]
    refine (Finset.sum_eq_zero fun z _ => ?_).symm
    by_cases hz : ∀ i ∉ S, z i = y i
    · push Not at h
      obtain ⟨i, hi, hne⟩ := h
      rw [hM.1 x z i (fun hh => hi (hTS hh)) (by rw [hz i hi]; exact hne), zero_mul]
    · rw [if_neg hz, mul_zero]

theorem outer_mulVec_right {S T : Finset ι} {M : Mat d K} (hM : ActsOn T M) (hTS : T ⊆ S) (f g : Vec d K) :
    outer S f (M *ᵥ g) = outer S f g * Mᴴ := by
  rw [← outer_star, outer_mulVec_left hM hTS, conjTranspose_mul, outer_star]

theorem outer_basis (m n : ℕ) (l : ι) :
    outer {l} (basisVec m l : Vec d K) (basisVec n l) = embed l (Matrix.of fun a b => if (a : ℕ) = m ∧ (b : ℕ) = n then 1 else 0) := by
  ext x y
  simp only [outer, embed, of_apply, basisVec]
  have : (∀ i ∉ ({l} : Finset ι), x i = y i) ↔ ∀ j, j ≠ l → x j = y j := by simp
  by_cases h : ∀ j, j ≠ l → x j = y j
  · rw [if_pos (this.mpr h), if_pos h]
    by_cases h1 : (x l : ℕ) = m <;> by_cases h2 : (y l : ℕ) = n <;> simp [h1, h2]
  · rw [if_neg fun hh => h (this.mp hh), if_neg h]

/-- the outer product of product states is the product of the outer products -/
theorem outer_tensor {S T : Finset ι} (hd : Disjoint S T) {f f' g g' : Vec d K} (hf : DependsOn S f) (hf' : DependsOn S f')
    (hg : DependsOn T g) (hg' : DependsOn T g') : outer (S ∪ T) (f * g) (f' * g') = outer S f f' * outer T g g' := by
  have hTS : ∀ i ∈ T, i ∉ S := fun i hi hs => Finset.disjoint_left.mp hd hs hi
  ext x y
  rw [mul_apply, Fintype.sum_eq_single (S.piecewise y x)]
  · simp only [outer, of_apply, Pi.mul_apply, star_mul']
    rw [if_pos (c := ∀ i ∉ S, x i = (S.piecewise y x : Cfg d) i) fun i hi => by simp [hi]]
    by_cases h : ∀ i ∉ S ∪ T, x i = y i
    · rw [if_pos h, if_pos fun i hi => ?_]
      · rw [hf' (S.piecewise y x) y fun i hi => by simp [hi], hg (S.piecewise y x) x fun i hi => by simp [hTS i hi]]
        ring
      · by_cases hs : i ∈ S
        · simp [hs]
        · simp [hs, h i (by simp [hs, hi])]
    · rw [if_neg h, if_neg fun hh => h fun i hi => ?_, mul_zero]
      simp only [Finset.mem_union, not_or] at hi
      have := hh i hi.2
      simpa [hi.1] using this
  · intro z hz
    simp only [outer, of_apply]
    by_cases h1 : ∀ i ∉ S, x i = z i
    · by_cases h2 : ∀ i ∉ T, z i = y i
      · exfalso
        apply hz
        funext i
        by_cases hs : i ∈ S
        · simp [hs, h2 i fun ht => hTS i ht hs]
        · simp [hs, h1 i hs]
      · rw [if_neg h2, mul_zero]
    · rw [if_neg h1, zero_mul]

/-- `|f><g| h = <g|h> f` -/
theorem outer_mulVec {S : Finset ι} {f g h : Vec d K} (hf : DependsOn S f) (x : Cfg d) :
    (outer S f g *ᵥ h) x = inner S x g h * f x := by
  simp only [mulVec, dotProduct, outer, of_apply, inner, Finset.sum_mul]
  refine Finset.sum_congr rfl fun z _ => ?_
  by_cases hz : ∀ i ∉ S, z i = x i
  · rw [if_pos hz, if_pos fun i hi => (hz i hi).symm]; ring
  · rw [if_neg hz, if_neg fun hh => hz fun i hi => (hh i hi).symm]; ring

end star

end QNET.State
