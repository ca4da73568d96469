import Verif.Osc.Thm
import Mathlib.Analysis.Calculus.Deriv.Star
import Mathlib.Analysis.Calculus.Deriv.Pow
import Mathlib.Analysis.Calculus.Deriv.Mul

/-!
# C92: coherent states

`CoherentStateKet` (`src/qnet/algebra/core/state_algebra.py` lines 367-416): `to_fock_representation` (lines 398-416) and `_diff`
(lines 389-396). Basis kets, ladder operators and the functions of the Bargmann-Fock space are those of `Verif/Osc/Model.lean` and
`Verif/Osc/Fock.lean`. Amplitudes are complex numbers, or (for the derivative) complex functions of a real symbol.
-/

namespace QNET.Osc

open ComplexConjugate

/-! ## the code -/

/-- `phase_factor` (state_algebra.py lines 401-402): `exp(-1/2 * ampl * ampl.conjugate())` -/
noncomputable def phaseFactor (u : ℂ) : ℂ := Complex.exp (-1 / 2 * u * conj u)

/-- the coefficient of `BasisKet(FockIndex(n))` in `term` (state_algebra.py lines 410-412): `ampl**n / sqrt(factorial(n))` -/
noncomputable def fockCoeff (u : ℂ) (n : ℕ) : ℂ := u ^ n / ((Real.sqrt n.factorial : ℝ) : ℂ)

/-- how many values the index takes (`none`: all natural numbers). `index_range` (state_algebra.py lines 406-409):
`IndexOverFockSpace(n, hs)` runs over `range(dimension)` or over all natural numbers (indices.py lines 517-525),
`IndexOverRange(n, 0, max_terms - 1)` over `range(0, max_terms)` (indices.py lines 478-485). -/
def numTerms (dim : Option ℕ) : Option ℤ → Option ℕ
  | none => dim
  | some m => some m.toNat

/-- `f` is the value of `to_fock_representation(max_terms=m)` (state_algebra.py line 413): `phase_factor * sum(term)`; the infinite sum
is the sum of a series of functions. -/
def IsFockRep (dim : Option ℕ) (m : Option ℤ) (u : ℂ) (f : Entire) : Prop :=
  match numTerms dim m with
  | none => ∀ z : ℂ, HasSum (fun n => phaseFactor u * (fockCoeff u n * (basisFn n).1 z)) (f.1 z)
  | some N => f = phaseFactor u • ∑ n ∈ Finset.range N, fockCoeff u n • basisFn n

/-- `_diff` (state_algebra.py lines 389-396): `(ampl * Create - ampl.conjugate() * Destroy).diff(sym) * self`; `du` is the derivative
of the amplitude and `duc` that of its conjugate. (The ladder operators do not depend on the symbol: their derivative is zero.) -/
def diffCoherent (u du duc : ℂ) : KX :=
  .app (.add (.smul du (.op .create)) (.smul (-1) (.smul duc (.op .destroy)))) (.ket (.coherent u))

/-! ## specification -/

/-- `c` are the Fock coefficients of the coherent state with amplitude `u`: the normalised eigenvector of the annihilation operator
with eigenvalue `u` and positive vacuum amplitude. -/
structure IsCoherent (u : ℂ) (c : ℕ → ℂ) : Prop where
  eigen : ∀ n : ℕ, ((Real.sqrt ((n + 1 : ℕ) : ℝ) : ℝ) : ℂ) * c (n + 1) = u * c n
  norm : HasSum (fun n => ‖c n‖ ^ 2) 1
  vacuum : ∃ r : ℝ, 0 < r ∧ c 0 = r

/-! ## proofs -/

theorem bra_coherent (u : ℂ) (n : ℕ) : bra n (coherentFn u) = phaseFactor u * fockCoeff u n := by
  have h1 : ∀ n, bra n (coherentFn u) = Complex.exp (-(u * conj u / 2)) * u ^ n / sqf n := by
    intro n
    show iteratedDeriv n (fun z => Complex.exp (u * z - u * conj u / 2)) 0 / sqf n = _
    have : (fun z => Complex.exp (u * z - u * conj u / 2)) = fun z => Complex.exp (-(u * conj u / 2)) * Complex.exp (u * z) := by
      funext z; rw [← Complex.exp_add]; congr 1; ring
    rw [this, iteratedDeriv_const_mul_field, iteratedDeriv_cexp_const_mul]
    simp
  rw [h1]
  unfold phaseFactor fockCoeff sqf
  rw [show -(u * conj u / 2) = -1 / 2 * u * conj u by ring, mul_div_assoc]

theorem phaseFactor_real (u : ℂ) : phaseFactor u = (Real.exp (-(‖u‖ ^ 2) / 2) : ℝ) := by
  unfold phaseFactor
  rw [mul_assoc, Complex.mul_conj, Complex.normSq_eq_norm_sq]
  push_cast
  congr 1; ring

theorem norm_fock_sq (u : ℂ) (n : ℕ) : ‖fockCoeff u n‖ ^ 2 = (‖u‖ ^ 2) ^ n / n.factorial := by
  unfold fockCoeff
  rw [norm_div, norm_pow, div_pow, Complex.norm_real, Real.norm_eq_abs, sq_abs, Real.sq_sqrt (by positivity)]
  ring

theorem hasSum_norm (u : ℂ) : HasSum (fun n => ‖phaseFactor u * fockCoeff u n‖ ^ 2) 1 := by
  have h := (NormedSpace.expSeries_div_hasSum_exp (𝔸 := ℝ) (‖u‖ ^ 2)).mul_left (Real.exp (-(‖u‖ ^ 2)))
  rw [← Real.exp_eq_exp_ℝ, ← Real.exp_add, neg_add_cancel, Real.exp_zero] at h
  refine Eq.mp (congrArg (fun g => HasSum g _) ?_) h
  funext n
  rw [norm_mul, mul_pow, norm_fock_sq, phaseFactor_real, Complex.norm_real, Real.norm_eq_abs, sq_abs, ← Real.exp_nat_mul]
  congr 2; push_cast; ring

theorem fock_succ (u : ℂ) (n : ℕ) : ((Real.sqrt ((n + 1 : ℕ) : ℝ) : ℝ) : ℂ) * fockCoeff u (n + 1) = u * fockCoeff u n := by
  have h := sqf_succ n
  have h1 := sqf_ne n
  have h2 := sqf_ne (n + 1)
  unfold fockCoeff
  change sq (n + 1) * (u ^ (n + 1) / sqf (n + 1)) = u * (u ^ n / sqf n)
  rw [h] at h2 ⊢
  have h3 := left_ne_zero_of_mul h2
  field_simp
  ring

/-- C92: the Fock coefficients of the coherent state, `exp(-|u|²/2) uⁿ/√n!`, are the ones of the normalised eigenvector of the
annihilation operator with eigenvalue `u` and positive vacuum amplitude, and of no other vector. -/
theorem C92_fock_unique (u : ℂ) (c : ℕ → ℂ) : IsCoherent u c ↔ ∀ n, c n = phaseFactor u * fockCoeff u n := by
  constructor
  · intro h
    obtain ⟨r, hr, h0⟩ := h.vacuum
    have hc : ∀ n, c n = r * fockCoeff u n := by
      intro n
      induction n with
      | zero => simp [h0, fockCoeff]
      | succ n ih =>
        have h1 := h.eigen n
        have h2 := fock_succ u n
        have h3 : ((Real.sqrt ((n + 1 : ℕ) : ℝ) : ℝ) : ℂ) ≠ 0 := sq_ne n
        apply mul_left_cancel₀ h3
        rw [h1, ih, mul_left_comm, mul_left_comm _ (r : ℂ), h2]
    have h1 := h.norm
    have h2 := (hasSum_norm u).mul_left (r ^ 2 / (Real.exp (-(‖u‖ ^ 2) / 2)) ^ 2)
    have h3 : (fun n => r ^ 2 / (Real.exp (-(‖u‖ ^ 2) / 2)) ^ 2 * ‖phaseFactor u * fockCoeff u n‖ ^ 2) = fun n => ‖c n‖ ^ 2 := by
      funext n
      have he := Real.exp_pos (-(‖u‖ ^ 2) / 2)
      rw [hc n, norm_mul, norm_mul, phaseFactor_real, Complex.norm_real, Complex.norm_real, Real.norm_eq_abs, Real.norm_eq_abs,
        abs_of_pos he, abs_of_pos hr]
      field_simp
    rw [h3] at h2
    have h4 := h1.unique h2
    have he := Real.exp_pos (-(‖u‖ ^ 2) / 2)
    have h5 : r = Real.exp (-(‖u‖ ^ 2) / 2) := by
      rw [mul_one, eq_div_iff (by positivity), one_mul] at h4
      exact ((sq_eq_sq₀ he.le hr.le).mp h4).symm
    intro n
    rw [hc n, phaseFactor_real, h5]
  · intro h
    have hc : c = fun n => phaseFactor u * fockCoeff u n := funext h
    subst hc
    refine ⟨fun n => ?_, hasSum_norm u, Real.exp (-(‖u‖ ^ 2) / 2), Real.exp_pos _, ?_⟩
    · rw [mul_left_comm, fock_succ, mul_left_comm]
    · rw [phaseFactor_real]; simp [fockCoeff]

/-- C92: the Fock representation of a coherent state of a mode of unbounded dimension has the value of the coherent state itself, the
state on which the other rules of the library act (`C37_kets_partial`); and that is the coherent state with that amplitude. -/
theorem C92_fock (u : ℂ) (f : Entire) : IsFockRep none none u f ↔ f = valKet (.coherent u) := by
  have hs : ∀ z : ℂ, HasSum (fun n => phaseFactor u * (fockCoeff u n * (basisFn n).1 z)) ((coherentFn u).1 z) := by
    intro z
    have h2 := (NormedSpace.expSeries_div_hasSum_exp (𝔸 := ℂ) (u * z)).mul_left (phaseFactor u)
    rw [← Complex.exp_eq_exp_ℂ] at h2
    have h3 : phaseFactor u * Complex.exp (u * z) = (coherentFn u).1 z := by
      show Complex.exp (-1 / 2 * u * conj u) * Complex.exp (u * z) = Complex.exp (u * z - u * conj u / 2)
      rw [← Complex.exp_add]; congr 1; ring
    rw [h3] at h2
    refine Eq.mp (congrArg (fun g => HasSum g _) ?_) h2
    funext n
    congr 1
    show _ = u ^ n / sqf n * (z ^ n / sqf n)
    rw [div_mul_div_comm, sqf_sq, mul_pow]
  constructor
  · intro h
    apply Subtype.ext
    funext z
    exact HasSum.unique (h z) (hs z)
  · intro h; subst h; exact hs

theorem C92_coherent (u : ℂ) : IsCoherent u (fun n => bra n (valKet (.coherent u))) :=
  (C92_fock_unique u _).mpr (bra_coherent u)

theorem bra_fockRep {dim : Option ℕ} {m : Option ℤ} {N : ℕ} (hN : numTerms dim m = some N) {u : ℂ} {f : Entire} (h : IsFockRep dim m u f)
    (n : ℕ) : bra n f = if n < N then bra n (valKet (.coherent u)) else 0 := by
  unfold IsFockRep at h
  rw [hN] at h
  rw [show f = phaseFactor u • ∑ n ∈ Finset.range N, fockCoeff u n • basisFn n from h, map_smul, map_sum]
  have : ∀ i, bra n (fockCoeff u i • basisFn i) = if n = i then fockCoeff u n else 0 := by
    intro i
    rw [map_smul, bra_basis]
    split
    · next h => subst h; simp
    · simp
  simp only [this]
  rw [Finset.sum_ite_eq]
  show _ = if n < N then bra n (coherentFn u) else 0
  rw [bra_coherent]
  simp only [Finset.mem_range]
  split <;> simp

/-- C92: with `max_terms = m` the representation keeps exactly the Fock components `0, …, m - 1` of the coherent state, and the squared
distance to the coherent state is the weight of the others. -/
theorem C92_fock_truncated (dim : Option ℕ) (m : ℤ) (u : ℂ) (f : Entire) (h : IsFockRep dim (some m) u f) :
    (∀ n : ℕ, bra n f = if (n : ℤ) < m then bra n (valKet (.coherent u)) else 0) ∧
    HasSum (fun n => ‖bra n (valKet (.coherent u)) - bra n f‖ ^ 2) (1 - ∑ n ∈ Finset.range m.toNat, ‖bra n (valKet (.coherent u))‖ ^ 2) := by
  have h1 : ∀ n : ℕ, bra n f = if n < m.toNat then bra n (valKet (.coherent u)) else 0 := fun n => bra_fockRep rfl h n
  refine ⟨fun n => ?_, ?_⟩
  · rw [h1 n]
    congr 1
    apply propext
    omega
  · have h2 := (C92_coherent u).norm
    have h3 : HasSum (fun n => if n < m.toNat then ‖bra n (valKet (.coherent u))‖ ^ 2 else 0)
        (∑ n ∈ Finset.range m.toNat, ‖bra n (valKet (.coherent u))‖ ^ 2) := by
      have := hasSum_sum_of_ne_finset_zero (L := .unconditional ℕ) (f := fun n => if n < m.toNat then ‖bra n (valKet (.coherent u))‖ ^ 2 else 0) (s := Finset.range m.toNat)
        (fun n hn => by simp only [Finset.mem_range] at hn; simp [hn])
      rwa [Finset.sum_congr rfl (g := fun n => ‖bra n (valKet (.coherent u))‖ ^ 2) (fun n hn => by simp [Finset.mem_range.mp hn])] at this
    refine Eq.mp (congrArg (fun g => HasSum g _) ?_) (h2.sub h3)
    funext n
    rw [h1 n]
    split <;> simp

/-- C92: the squared distance between the coherent state and its truncated representation tends to zero with the number of terms. -/
theorem C92_fock_limit (dim : Option ℕ) (u : ℂ) (f : ℕ → Entire) (h : ∀ N : ℕ, IsFockRep dim (some (N : ℤ)) u (f N)) :
    Filter.Tendsto (fun N => ∑' n, ‖bra n (valKet (.coherent u)) - bra n (f N)‖ ^ 2) Filter.atTop (nhds 0) := by
  have h1 : (fun N => ∑' n, ‖bra n (valKet (.coherent u)) - bra n (f N)‖ ^ 2) =
      fun N => 1 - ∑ n ∈ Finset.range N, ‖bra n (valKet (.coherent u))‖ ^ 2 := by
    funext N
    exact (C92_fock_truncated dim N u (f N) (h N)).2.tsum_eq
  rw [h1]
  have h2 := ((C92_coherent u).norm.tendsto_sum_nat).const_sub 1
  simpa using h2

/-- In a mode of given dimension the representation has as many terms as the dimension. -/
theorem C92_fock_dim (d : ℕ) (u : ℂ) (f : Entire) (h : IsFockRep (some d) none u f) (n : ℕ) :
    bra n f = if n < d then bra n (valKet (.coherent u)) else 0 := bra_fockRep rfl h n

theorem down_coherent (u : ℂ) : down (coherentFn u) = u • coherentFn u :=
  (C37_kets_partial (x := .destroy) (k := .coherent u) (fun _ _ h => by cases h) rfl).symm

theorem bra_diff (u du duc : ℂ) (n : ℕ) : bra n (valKX (diffCoherent u du duc)) =
    phaseFactor u * (n * u ^ (n - 1) * du - u * duc * u ^ n) / sqf n := by
  show bra n ((du • up + (-1 : ℂ) • duc • down) (coherentFn u)) = _
  rw [LinearMap.add_apply, LinearMap.smul_apply, LinearMap.smul_apply, LinearMap.smul_apply, down_coherent, map_add, map_smul, map_smul, map_smul,
    map_smul, bra_coherent]
  cases n with
  | zero =>
    rw [bra_up_zero]
    simp [fockCoeff, sqf]
    ring
  | succ k =>
    rw [bra_up_succ, bra_coherent]
    unfold fockCoeff
    change du • (sq (k + 1) * (phaseFactor u * (u ^ k / sqf k))) + (-1 : ℂ) • duc • u • (phaseFactor u * (u ^ (k + 1) / sqf (k + 1))) = _
    have h1 := sqf_ne (k + 1)
    have h2 := sqf_ne k
    have h3 := sq_sq (k + 1)
    rw [sqf_succ] at h1 ⊢
    have h4 := left_ne_zero_of_mul h1
    simp only [smul_eq_mul, Nat.add_sub_cancel]
    rw [← h3]
    field_simp
    ring

/-- C92: the derivative of the Fock coefficients of a coherent state whose amplitude depends on a real symbol is what `diff` returns,
up to a multiple of the coherent state. -/
theorem C92_diff_error (u : ℝ → ℂ) (du : ℂ) (s : ℝ) (hu : HasDerivAt u du s) (n : ℕ) :
    HasDerivAt (fun t => bra n (valKet (.coherent (u t))))
      (bra n (valKX (diffCoherent (u s) du (conj du))) - Complex.I * ((conj (u s) * du).im : ℝ) * bra n (valKet (.coherent (u s)))) s := by
  have hc : HasDerivAt (fun t => conj (u t)) (conj du) s := hu.star
  have h1 : HasDerivAt (fun t => phaseFactor (u t) * (u t) ^ n / sqf n)
      ((phaseFactor (u s) * ((-1 / 2 * du) * conj (u s) + (-1 / 2 * u s) * conj du) * u s ^ n +
        phaseFactor (u s) * (n * u s ^ (n - 1) * du)) / sqf n) s := by
    refine HasDerivAt.div_const (HasDerivAt.mul ?_ (hu.pow n)) _
    exact ((hu.const_mul (-1 / 2 : ℂ)).mul hc).cexp
  have h2 : (fun t => bra n (valKet (.coherent (u t)))) = fun t => phaseFactor (u t) * (u t) ^ n / sqf n := by
    funext t
    show bra n (coherentFn (u t)) = _
    rw [bra_coherent, fockCoeff, mul_div_assoc]; rfl
  rw [h2]
  refine h1.congr_deriv ?_
  rw [bra_diff]
  show _ = _ - _ * bra n (coherentFn (u s))
  rw [bra_coherent]
  have h3 : ((conj (u s) * du).im : ℂ) * (2 * Complex.I) = conj (u s) * du - u s * conj du := by
    have := Complex.sub_conj (conj (u s) * du)
    rw [map_mul, Complex.conj_conj] at this
    rw [this]; push_cast; ring
  have h4 : Complex.I * ((conj (u s) * du).im : ℂ) = (conj (u s) * du - u s * conj du) / 2 := by rw [← h3]; ring
  rw [h4]
  unfold fockCoeff
  change _ = _ - _ * (phaseFactor (u s) * (u s ^ n / sqf n))
  ring

theorem phaseFactor_ne (u : ℂ) : phaseFactor u ≠ 0 := Complex.exp_ne_zero _

/-- C92 (what is true of `diff`): `diff` gives the derivative of the coherent state exactly if the phase of the amplitude does not move,
that is, if `conj u * u'` is real. -/
theorem C92_diff_partial (u : ℝ → ℂ) (du : ℂ) (s : ℝ) (hu : HasDerivAt u du s) :
    (∀ n, HasDerivAt (fun t => bra n (valKet (.coherent (u t)))) (bra n (valKX (diffCoherent (u s) du (conj du)))) s) ↔
      (conj (u s) * du).im = 0 := by
  constructor
  · intro h
    have h1 := (h 0).unique (C92_diff_error u du s hu 0)
    have h2 : bra 0 (valKet (.coherent (u s))) ≠ 0 := by
      show bra 0 (coherentFn (u s)) ≠ 0
      rw [bra_coherent]
      simp [fockCoeff, phaseFactor_ne]
    rw [eq_comm, sub_eq_self, mul_eq_zero, mul_eq_zero] at h1
    rcases h1 with (h1 | h1) | h1
    · exact absurd h1 Complex.I_ne_zero
    · exact_mod_cast h1
    · exact absurd h1 h2
  · intro h n
    have h1 := C92_diff_error u du s hu n
    rw [h] at h1
    simpa using h1

/-- not vacuous: a real amplitude -/
example : ∃ (u : ℝ → ℂ) (du : ℂ), HasDerivAt u du 1 ∧ du ≠ 0 ∧ (conj (u 1) * du).im = 0 := by
  refine ⟨fun t => (t : ℂ), 1, Complex.ofRealCLM.hasDerivAt, one_ne_zero, by simp⟩

/-- C92 refuted: the amplitude `exp(i t)` at `t = 0`. The vacuum component of the coherent state is constant, its derivative zero; `diff` returns a
ket whose vacuum component is not zero. -/
theorem C92_refuted_diff : ∃ (u : ℝ → ℂ) (du : ℂ), HasDerivAt u du 0 ∧
    HasDerivAt (fun t => bra 0 (valKet (.coherent (u t)))) 0 0 ∧ bra 0 (valKX (diffCoherent (u 0) du (conj du))) ≠ 0 := by
  have hu : HasDerivAt (fun t : ℝ => Complex.exp ((t : ℂ) * Complex.I)) Complex.I 0 := by
    have h1 : HasDerivAt (fun t : ℝ => (t : ℂ) * Complex.I) Complex.I 0 := by
      have := (Complex.ofRealCLM.hasDerivAt (x := (0 : ℝ))).mul_const Complex.I
      simpa using this
    have := h1.cexp
    simpa using this
  refine ⟨_, _, hu, ?_, ?_⟩
  · have : (fun t : ℝ => bra 0 (valKet (.coherent (Complex.exp ((t : ℂ) * Complex.I))))) = fun _ => Complex.exp (-1 / 2) := by
      funext t
      show bra 0 (coherentFn _) = _
      rw [bra_coherent, phaseFactor, fockCoeff]
      rw [mul_assoc, Complex.mul_conj, Complex.normSq_eq_norm_sq, Complex.norm_exp_ofReal_mul_I]
      simp
    rw [this]
    exact hasDerivAt_const _ _
  · rw [bra_diff]
    simp [phaseFactor_ne, sqf]

/-- not vacuous: the second coefficient of the coherent state with amplitude 2 i is `-2√2 e⁻²` -/
example : bra 2 (valKet (.coherent (2 * Complex.I))) = -(2 * (Real.sqrt 2 : ℝ)) * Complex.exp (-2) := by
  show bra 2 (coherentFn _) = _
  rw [bra_coherent, phaseFactor, fockCoeff]
  have h : ((Real.sqrt 2 : ℝ) : ℂ) * (Real.sqrt 2 : ℝ) = 2 := by
    rw [← Complex.ofReal_mul, Real.mul_self_sqrt (by norm_num)]; norm_num
  have h0 : ((Real.sqrt 2 : ℝ) : ℂ) ≠ 0 := by
    intro h1; rw [h1] at h; simp at h
  have h1 : (-1 / 2 * (2 * Complex.I) * conj (2 * Complex.I)) = -2 := by
    rw [map_mul, Complex.conj_I, Complex.conj_ofNat]
    linear_combination (2 : ℂ) * Complex.I_mul_I
  rw [h1]
  have h2 : ((Real.sqrt (Nat.factorial 2 : ℕ) : ℝ) : ℂ) = (Real.sqrt 2 : ℝ) := by norm_num [Nat.factorial]
  rw [h2, mul_pow, Complex.I_sq]
  field_simp
  linear_combination h

end QNET.Osc
