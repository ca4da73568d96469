import Verif.Osc.Fock
import Mathlib.Data.Matrix.Basic
import Mathlib.Analysis.Normed.Group.InfiniteSum

/-! # C37: the oscillator and projector rules are operator identities -/

namespace QNET.Osc

open ComplexConjugate

/-- the value of operators and operator expressions in the Bargmann-Fock representation -/
noncomputable def valOp : Op → Module.End ℂ Entire
  | .create => up
  | .destroy => down
  | .sigma j k => sig j k
  | .phase u => rot u
  | .displace u => disp u

/-- value of an operator expression, for given values of the operators in an algebra -/
def valOX {A : Type} [Ring A] [Algebra ℂ A] (v : Op → A) : OX → A
  | .one => 1
  | .zero => 0
  | .op o => v o
  | .smul c e => c • valOX v e
  | .mul a b => valOX v a * valOX v b
  | .add a b => valOX v a + valOX v b

/-- values of kets -/
noncomputable def valKet : Ket → Entire
  | .basis n => basisFn n
  | .coherent u => coherentFn u

/-- value of a ket expression -/
noncomputable def valKX : KX → Entire
  | .zero => 0
  | .ket k => valKet k
  | .smul c k => c • valKX k
  | .app e k => valOX valOp e (valKX k)

theorem rot_zero : rot 0 = 1 := by
  ext f z
  show f.1 (Complex.exp (Complex.I * 0) * z) = f.1 z
  simp

theorem disp_zero : disp 0 = 1 := by
  ext f z
  show Complex.exp (0 * z - 0 * conj 0 / 2) * f.1 (z - conj 0) = f.1 z
  simp

theorem phaseCreate_val (u : ℂ) : valOX valOp (phaseCreate u) = rot u := by
  unfold phaseCreate
  split
  · rename_i h; rw [h, rot_zero]; rfl
  · rfl

theorem displaceCreate_val (u : ℂ) : valOX valOp (displaceCreate u) = disp u := by
  unfold displaceCreate
  split
  · rename_i h; rw [h, disp_zero]; rfl
  · rfl

theorem raise_val (j k : ℕ) (dj dk : ℤ) (j' k' : ℕ) (hj : (j : ℤ) + dj = j') (hk : (k : ℤ) + dk = k') :
    valOX valOp (raiseJK none j k dj dk) = sig j' k' := by
  have h1 : inDim none ((j : ℤ) + dj) = true := by simp [inDim, hj]
  have h2 : inDim none ((k : ℤ) + dk) = true := by simp [inDim, hk]
  unfold raiseJK
  rw [h1, h2, hj, hk]
  rfl

/-- C37: every rule for the product of two operators of an oscillator mode of unbounded dimension (projectors, ladder operators, phase
and displacement operators) is an identity of operators on the Fock space, for every level and every parameter. -/
theorem C37_products {x y : Op} {e : OX} (h : prodRule none x y = some e) : valOX valOp e = valOp x * valOp y := by
  cases x <;> cases y <;> simp only [prodRule] at h
  all_goals first | (cases h; done) | injection h with h
  all_goals subst h
  · -- create, sigma
    rename_i j k
    ext1 f
    show sq (j + 1) • (valOX valOp (raiseJK none j k 1 0)) f = up (sig j k f)
    rw [raise_val j k 1 0 (j + 1) k (by simp) (by simp), sig_apply, sig_apply, map_smul, up_basis, smul_comm]
  · -- destroy, create
    ext f z
    show f.1 z + z * deriv f.1 z = deriv (fun z => z * f.1 z) z
    rw [deriv_fun_mul differentiableAt_fun_id f.2.differentiableAt]
    simp
  · -- destroy, sigma
    rename_i j k
    ext1 f
    show sq j • (valOX valOp (raiseJK none j k (-1) 0)) f = down (sig j k f)
    rw [sig_apply, map_smul]
    cases j with
    | zero => simp [down_basis_zero, sq]
    | succ j =>
      rw [raise_val (j + 1) k (-1) 0 j k (by simp) (by simp), down_basis_succ, sig_apply, smul_comm]
  · -- destroy, phase
    rename_i u
    ext f z
    show Complex.exp (Complex.I * u) * ((valOX valOp (phaseCreate u)) (down f)).1 z = deriv (fun z => f.1 (Complex.exp (Complex.I * u) * z)) z
    rw [phaseCreate_val]
    show Complex.exp (Complex.I * u) * deriv f.1 (Complex.exp (Complex.I * u) * z) = _
    have h1 : HasDerivAt (fun z => f.1 (Complex.exp (Complex.I * u) * z)) (deriv f.1 (Complex.exp (Complex.I * u) * z) * (Complex.exp (Complex.I * u) * 1)) z :=
      (f.2.differentiableAt.hasDerivAt).comp z ((hasDerivAt_id z).const_mul _)
    rw [h1.deriv]; ring
  · -- destroy, displace
    rename_i u
    ext f z
    show ((valOX valOp (displaceCreate u)) (down f + u • f)).1 z = deriv (fun z => Complex.exp (u * z - u * conj u / 2) * f.1 (z - conj u)) z
    rw [displaceCreate_val]
    show Complex.exp (u * z - u * conj u / 2) * (deriv f.1 (z - conj u) + u * f.1 (z - conj u)) = _
    have h1 : HasDerivAt (fun z => Complex.exp (u * z - u * conj u / 2)) (Complex.exp (u * z - u * conj u / 2) * (u * 1)) z :=
      (((hasDerivAt_id z).const_mul u).sub_const _).cexp
    have h2 : HasDerivAt (fun z => f.1 (z - conj u)) (deriv f.1 (z - conj u) * 1) z :=
      (f.2.differentiableAt.hasDerivAt).comp z ((hasDerivAt_id z).sub_const _)
    rw [(h1.fun_mul h2).deriv]; ring
  · -- sigma, create
    rename_i j k
    ext1 f
    show sq k • (valOX valOp (raiseJK none j k 0 (-1))) f = sig j k (up f)
    rw [sig_apply]
    cases k with
    | zero => simp [bra_up_zero, sq]
    | succ k =>
      rw [raise_val j (k + 1) 0 (-1) j k (by simp) (by simp), bra_up_succ, sig_apply, smul_smul]
  · -- sigma, destroy
    rename_i j k
    ext1 f
    show sq (k + 1) • (valOX valOp (raiseJK none j k 0 1)) f = sig j k (down f)
    rw [raise_val j k 0 1 j (k + 1) (by simp) (by simp), sig_apply, sig_apply, bra_down, smul_smul]
  · -- sigma, sigma
    rename_i a b c d
    ext1 f
    show (valOX valOp (deltaOp b c (.op (.sigma a d)))) f = sig a b (sig c d f)
    rw [sig_apply c, map_smul, sig_apply, bra_basis]
    unfold deltaOp
    split
    · rw [one_smul]; rfl
    · simp [valOX]
  · -- sigma, phase
    rename_i j k u
    ext1 f
    show Complex.exp (Complex.I * u * k) • sig j k f = sig j k (rot u f)
    rw [sig_apply, sig_apply, bra_rot, smul_smul]
  · -- phase, create
    rename_i u
    ext f z
    show Complex.exp (Complex.I * u) * (z * ((valOX valOp (phaseCreate u)) f).1 z) = _
    rw [phaseCreate_val]
    show Complex.exp (Complex.I * u) * (z * f.1 (Complex.exp (Complex.I * u) * z)) = (Complex.exp (Complex.I * u) * z) * f.1 (Complex.exp (Complex.I * u) * z)
    ring
  · -- phase, sigma
    rename_i u j k
    ext1 f
    show Complex.exp (Complex.I * u * j) • sig j k f = rot u (sig j k f)
    rw [sig_apply, map_smul, rot_basis, smul_comm]
  · -- phase, phase
    rename_i u v
    rw [phaseCreate_val]
    ext f z
    show f.1 (Complex.exp (Complex.I * (u + v)) * z) = f.1 (Complex.exp (Complex.I * v) * (Complex.exp (Complex.I * u) * z))
    rw [← mul_assoc, ← Complex.exp_add]
    congr 3; ring
  · -- displace, create
    rename_i u
    ext f z
    show ((up + (-conj u) • (1 : Module.End ℂ Entire)) ((valOX valOp (displaceCreate u)) f)).1 z = _
    rw [displaceCreate_val]
    show z * (Complex.exp (u * z - u * conj u / 2) * f.1 (z - conj u)) + (-conj u) * (Complex.exp (u * z - u * conj u / 2) * f.1 (z - conj u))
      = Complex.exp (u * z - u * conj u / 2) * ((z - conj u) * f.1 (z - conj u))
    ring
  · -- displace, displace
    rename_i u v
    ext f z
    show Complex.exp ((u * conj v - conj u * v) / 2) * ((valOX valOp (displaceCreate (u + v))) f).1 z = _
    rw [displaceCreate_val]
    show Complex.exp ((u * conj v - conj u * v) / 2) * (Complex.exp ((u + v) * z - (u + v) * conj (u + v) / 2) * f.1 (z - conj (u + v)))
      = Complex.exp (u * z - u * conj u / 2) * (Complex.exp (v * (z - conj u) - v * conj v / 2) * f.1 (z - conj u - conj v))
    rw [← mul_assoc, ← mul_assoc, ← Complex.exp_add, ← Complex.exp_add, map_add]
    congr 2 <;> ring

/-- C37 (partial): every rule for an operator acting on a basis state or a coherent state is an identity in the Fock space; for the phase operator
acting on a coherent state, the phase must be real (see `C37_refuted_complex_phase`). -/
theorem C37_kets_partial {x : Op} {k : Ket} {e : KX} (hreal : ∀ u v, x = .phase u → k = .coherent v → conj u = u) (h : ketRule none x k = some e) : valKX e = valOp x (valKet k) := by
  have hnext : ∀ (n : ℕ) (d : ℤ) (m : ℕ), (n : ℤ) + d = m → valKX (nextKet none n d) = basisFn m := by
    intro n d m hm
    have h1 : inDim none ((n : ℤ) + d) = true := by simp [inDim, hm]
    unfold nextKet
    rw [h1, hm]; rfl
  cases x <;> cases k <;> simp only [ketRule] at h
  all_goals first | (cases h; done) | skip
  · rename_i n; cases h
    show sq (n + 1) • valKX (nextKet none n 1) = up (basisFn n)
    rw [hnext n 1 (n + 1) (by simp), up_basis]
  · rename_i n; cases h
    show sq n • valKX (nextKet none n (-1)) = down (basisFn n)
    cases n with
    | zero => simp [down_basis_zero, sq]
    | succ n => rw [hnext (n + 1) (-1) n (by simp), down_basis_succ]
  · rename_i u; cases h
    ext z
    show u * Complex.exp (u * z - u * conj u / 2) = deriv (fun z => Complex.exp (u * z - u * conj u / 2)) z
    have h1 : HasDerivAt (fun z => Complex.exp (u * z - u * conj u / 2)) (Complex.exp (u * z - u * conj u / 2) * (u * 1)) z :=
      (((hasDerivAt_id z).const_mul u).sub_const _).cexp
    rw [h1.deriv]; ring
  · rename_i n m k; cases h
    show valKX (deltaKet m k (.ket (.basis n))) = sig n m (basisFn k)
    rw [sig_apply, bra_basis]
    unfold deltaKet
    split
    · rw [one_smul]; rfl
    · simp [valKX]
  · rename_i u n; cases h
    show Complex.exp (Complex.I * u * n) • basisFn n = rot u (basisFn n)
    rw [rot_basis]
  · rename_i u v; cases h
    ext z
    show Complex.exp (v * Complex.exp (Complex.I * u) * z - v * Complex.exp (Complex.I * u) * conj (v * Complex.exp (Complex.I * u)) / 2)
      = Complex.exp (v * (Complex.exp (Complex.I * u) * z) - v * conj v / 2)
    have hu := hreal u v rfl rfl
    have h1 : Complex.exp (Complex.I * u) * conj (Complex.exp (Complex.I * u)) = 1 := by
      rw [← Complex.exp_conj, ← Complex.exp_add, map_mul, Complex.conj_I, hu]
      simp
    congr 1
    rw [map_mul]
    linear_combination (-(v * conj v) / 2) * h1
  · rename_i u n
    split at h
    · rename_i hn; cases h; subst hn
      ext z
      show Complex.exp (u * z - u * conj u / 2) = Complex.exp (u * z - u * conj u / 2) * ((z - conj u) ^ 0 / sqf 0)
      simp [sqf]
    · cases h
  · rename_i u v; cases h
    ext z
    show Complex.exp (u * z - u * conj u / 2) * (Complex.exp (v * (z - conj u) - v * conj v / 2) * ((z - conj u - conj v) ^ 0 / sqf 0))
      = Complex.exp (u * z - u * conj u / 2) * Complex.exp (v * (z - conj u) - v * conj v / 2)
    simp [sqf]

/-- C37 refuted: for a phase that is not real, `Phase(u) * |v>` is not the coherent state `|v e^(iu)>` (here `u = i`, `v = 1`): the rule loses
the normalisation factor. -/
theorem C37_refuted_complex_phase :
    ketRule none (.phase Complex.I) (.coherent 1) = some (.ket (.coherent (1 * Complex.exp (Complex.I * Complex.I)))) ∧
    valKX (.ket (.coherent (1 * Complex.exp (Complex.I * Complex.I)))) ≠ valOp (.phase Complex.I) (valKet (.coherent 1)) := by
  refine ⟨rfl, fun h => ?_⟩
  have h0 := congrArg (fun f : Entire => f.1 0) h
  change Complex.exp (1 * Complex.exp (Complex.I * Complex.I) * 0 - 1 * Complex.exp (Complex.I * Complex.I) * conj (1 * Complex.exp (Complex.I * Complex.I)) / 2)
    = Complex.exp (1 * (Complex.exp (Complex.I * Complex.I) * 0) - 1 * conj 1 / 2) at h0
  rw [Complex.I_mul_I] at h0
  have e1 : Complex.exp (-1) = ((Real.exp (-1) : ℝ) : ℂ) := by push_cast; rfl
  rw [e1] at h0
  simp only [one_mul, map_one, Complex.conj_ofReal, mul_zero, zero_sub] at h0
  have e2 : Complex.exp (-(((Real.exp (-1) : ℝ) : ℂ) * ((Real.exp (-1) : ℝ) : ℂ) / 2)) = ((Real.exp (-(Real.exp (-1) * Real.exp (-1) / 2)) : ℝ) : ℂ) := by
    push_cast; rfl
  have e3 : Complex.exp (-(1 / 2)) = ((Real.exp (-(1 / 2)) : ℝ) : ℂ) := by push_cast; rfl
  rw [e2, e3, Complex.ofReal_inj, Real.exp_eq_exp, ← Real.exp_add] at h0
  have h1 := (div_left_inj' (two_ne_zero)).mp (neg_injective h0)
  rw [Real.exp_eq_one_iff] at h1
  norm_num at h1

/-! ## Adjoints -/

theorem bra_disp_down (i j : ℕ) (u : ℂ) :
    sq (i + 1) * bra (i + 1) (disp u (basisFn j)) = bra i (disp u (down (basisFn j))) + u * bra i (disp u (basisFn j)) := by
  rw [← bra_down]
  have h := C37_products (x := .destroy) (y := .displace u) rfl
  have h1 := congrArg (fun T : Module.End ℂ Entire => bra i (T (basisFn j))) h
  have h2 : (valOX valOp (OX.mul (displaceCreate u) (OX.add (OX.op Op.destroy) (OX.smul u OX.one)))) (basisFn j)
      = disp u (down (basisFn j) + u • basisFn j) := by
    show (valOX valOp (displaceCreate u)) (down (basisFn j) + u • basisFn j) = _
    rw [displaceCreate_val]
  simp only [h2] at h1
  change bra i (disp u (down (basisFn j) + u • basisFn j)) = bra i (down (disp u (basisFn j))) at h1
  rw [← h1, map_add, map_add, map_smul, map_smul, smul_eq_mul]

theorem disp_up (u : ℂ) (f : Entire) : disp u (up f) = up (disp u f) - conj u • disp u f := by
  ext z
  show Complex.exp (u * z - u * conj u / 2) * ((z - conj u) * f.1 (z - conj u))
    = z * (Complex.exp (u * z - u * conj u / 2) * f.1 (z - conj u)) - conj u * (Complex.exp (u * z - u * conj u / 2) * f.1 (z - conj u))
  ring

/-- `<i|T|j>` -/
noncomputable def elem (T : Module.End ℂ Entire) (i j : ℕ) : ℂ := bra i (T (basisFn j))

theorem sq_ne (n : ℕ) : sq (n + 1) ≠ 0 := by
  intro h
  have := sq_sq (n + 1)
  rw [h, zero_mul] at this
  have h2 : ((n + 1 : ℕ) : ℂ) ≠ 0 := by exact_mod_cast Nat.succ_ne_zero n
  exact h2 this.symm

theorem sq_conj (n : ℕ) : conj (sq n) = sq n := by unfold sq; exact Complex.conj_ofReal _

/-- first recurrence, from `a D = D (a + u)` -/
theorem elem_disp_row (i j : ℕ) (u : ℂ) : sq (i + 1) * elem (disp u) (i + 1) j = sq j * elem (disp u) i (j - 1) + u * elem (disp u) i j := by
  unfold elem
  rw [bra_disp_down]
  cases j with
  | zero => simp [down_basis_zero, sq]
  | succ j => rw [down_basis_succ, map_smul, map_smul, smul_eq_mul, Nat.add_sub_cancel]

/-- second recurrence, from `D a^dagger = (a^dagger - u^*) D` -/
theorem elem_disp_col (i j : ℕ) (u : ℂ) : sq (j + 1) * elem (disp u) i (j + 1) = sq i * elem (disp u) (i - 1) j - conj u * elem (disp u) i j := by
  unfold elem
  rw [← smul_eq_mul, ← map_smul, ← map_smul, ← up_basis, disp_up, map_sub, map_smul, smul_eq_mul]
  congr 1
  cases i with
  | zero => rw [bra_up_zero]; simp [sq]
  | succ i => rw [bra_up_succ, Nat.add_sub_cancel]

theorem elem_disp_zero (u : ℂ) : elem (disp u) 0 0 = Complex.exp (-(u * conj u / 2)) := by
  show iteratedDeriv 0 (fun z => Complex.exp (u * z - u * conj u / 2) * ((z - conj u) ^ 0 / sqf 0)) 0 / sqf 0 = _
  simp [sqf]

theorem elem_disp_adj (u : ℂ) : ∀ j i : ℕ, elem (disp u) i j = conj (elem (disp (-u)) j i) := by
  intro j
  induction j with
  | zero =>
    intro i
    induction i with
    | zero => rw [elem_disp_zero, elem_disp_zero, ← Complex.exp_conj]; simp [mul_comm, Complex.conj_ofNat]
    | succ i ih =>
      apply mul_left_cancel₀ (sq_ne i)
      rw [elem_disp_row]
      have h2 := congrArg conj (elem_disp_col 0 i (-u))
      rw [map_mul, sq_conj] at h2
      rw [h2, ih]
      simp [sq]
  | succ j ih =>
    intro i
    apply mul_left_cancel₀ (sq_ne j)
    rw [elem_disp_col]
    have h2 := congrArg conj (elem_disp_row j i (-u))
    rw [map_mul, sq_conj] at h2
    rw [h2, ih, ih, map_add, map_mul, map_mul, sq_conj, map_neg]
    ring

/-- C37: the `adjoint` of every oscillator operator denotes the adjoint: its matrix elements in the basis of Fock states are
the complex conjugates of the transposed ones. -/
theorem C37_adjoint (x : Op) (i j : ℕ) : elem (valOX valOp (adjointOp x)) i j = conj (elem (valOp x) j i) := by
  have hup : ∀ i j, elem up i j = conj (elem down j i) := by
    intro i j
    unfold elem
    rw [up_basis, map_smul, bra_basis, smul_eq_mul]
    cases i with
    | zero => rw [down_basis_zero]; simp
    | succ i =>
      rw [down_basis_succ, map_smul, bra_basis, smul_eq_mul, map_mul, sq_conj]
      by_cases h : i = j
      · subst h; simp
      · rw [if_neg (by omega), if_neg (fun e => h e.symm)]; simp
  cases x with
  | create => 
    show elem down i j = conj (elem up j i)
    rw [hup, Complex.conj_conj]
  | destroy => exact hup i j
  | sigma a b =>
    show bra i (sig b a (basisFn j)) = conj (bra j (sig a b (basisFn i)))
    rw [sig_apply, sig_apply, map_smul, map_smul, bra_basis, bra_basis, bra_basis, bra_basis, smul_eq_mul, smul_eq_mul, map_mul]
    by_cases h1 : a = j
    · subst h1
      by_cases h2 : i = b
      · subst h2; simp
      · simp [h2]; exact fun e => h2 e.symm
    · simp [h1]; exact fun e => absurd e.symm h1
  | phase u =>
    show bra i ((valOX valOp (phaseCreate (-conj u))) (basisFn j)) = conj (bra j (rot u (basisFn i)))
    rw [phaseCreate_val, rot_basis, rot_basis, map_smul, map_smul, bra_basis, bra_basis, smul_eq_mul, smul_eq_mul, map_mul, ← Complex.exp_conj]
    by_cases h : i = j
    · subst h; simp
    · rw [if_neg h, if_neg (fun e => h e.symm)]; simp
  | displace u =>
    show elem (valOX valOp (displaceCreate (-u))) i j = conj (elem (disp u) j i)
    rw [displaceCreate_val, elem_disp_adj, neg_neg]

/-! ## Bras of coherent states, and `|a><b|` -/

/-- `<b|f>` -/
noncomputable def braOf : Ket → Entire → ℂ
  | .basis n, f => bra n f
  | .coherent u, f => Complex.exp (-(u * conj u / 2)) * f.1 (conj u)

/-- `<b|f>` is the sum of the products of the conjugate coefficients of `b` and the coefficients of `f` in the Fock basis. -/
theorem braOf_spec (b : Ket) (f : Entire) : HasSum (fun n => conj (bra n (valKet b)) * bra n f) (braOf b f) := by
  cases b with
  | basis m =>
    have : (fun n => conj (bra n (valKet (.basis m))) * bra n f) = fun n => if n = m then bra m f else 0 := by
      funext n
      show conj (bra n (basisFn m)) * bra n f = _
      rw [bra_basis]
      by_cases h : n = m
      · subst h; simp
      · simp [h]
    rw [this]
    exact hasSum_ite_eq m (bra m f)
  | coherent u =>
    have h1 : ∀ n, bra n (coherentFn u) = Complex.exp (-(u * conj u / 2)) * u ^ n / sqf n := by
      intro n
      show iteratedDeriv n (fun z => Complex.exp (u * z - u * conj u / 2)) 0 / sqf n = _
      have : (fun z => Complex.exp (u * z - u * conj u / 2)) = fun z => Complex.exp (-(u * conj u / 2)) * Complex.exp (u * z) := by
        funext z; rw [← Complex.exp_add]; congr 1; ring
      rw [this, iteratedDeriv_const_mul_field, iteratedDeriv_cexp_const_mul]
      simp
    have h2 := Complex.hasSum_taylorSeries_of_entire f.2 0 (conj u)
    have h3 := h2.mul_left (Complex.exp (-(u * conj u / 2)))
    refine Eq.mp (congrArg (fun g => HasSum g _) ?_) h3
    funext n
    refine Eq.symm ?_
    show conj (bra n (coherentFn u)) * (iteratedDeriv n f.1 0 / sqf n) = _
    have hc : conj (sqf n) = sqf n := by unfold sqf; exact Complex.conj_ofReal _
    have hs := sqf_sq n
    have hn := sqf_ne n
    rw [h1, map_div₀, map_mul, ← Complex.exp_conj, map_pow, hc, ← hs, sub_zero, smul_eq_mul, smul_eq_mul]
    have hu : conj (-(u * conj u / 2)) = -(u * conj u / 2) := by
      simp [mul_comm, Complex.conj_ofNat]
    rw [hu]
    field_simp

theorem bra_zero_rot_free (f : Entire) : bra 0 f = f.1 0 := by
  show iteratedDeriv 0 f.1 0 / sqf 0 = _
  simp [sqf]

theorem bra_zero_disp (u : ℂ) (f : Entire) : bra 0 (disp (-u) f) = braOf (.coherent u) f := by
  rw [bra_zero_rot_free]
  show Complex.exp (-u * 0 - -u * conj (-u) / 2) * f.1 (0 - conj (-u)) = Complex.exp (-(u * conj u / 2)) * f.1 (conj u)
  rw [map_neg]
  congr 2 <;> ring

theorem disp_basis_zero (u : ℂ) : disp u (basisFn 0) = coherentFn u := by
  ext z
  show Complex.exp (u * z - u * conj u / 2) * ((z - conj u) ^ 0 / sqf 0) = Complex.exp (u * z - u * conj u / 2)
  simp [sqf]

/-- C37: `|a><b|` for basis states and coherent states denotes the operator `f -> <b|f> |a>`. -/
theorem C37_ketbra (a b : Ket) (f : Entire) : (valOX valOp (ketBra a b)) f = braOf b f • valKet a := by
  cases a with
  | basis m =>
    cases b with
    | basis n => rfl
    | coherent v =>
      show sig m 0 (disp (-v) f) = _
      rw [sig_apply, bra_zero_disp]; rfl
  | coherent u =>
    cases b with
    | basis n =>
      show disp u (sig 0 n f) = _
      rw [sig_apply, map_smul, disp_basis_zero]; rfl
    | coherent v =>
      show disp u (sig 0 0 (disp (-v) f)) = _
      rw [sig_apply, bra_zero_disp, map_smul, disp_basis_zero]; rfl

/-- C37: `<a|b>` for basis states. -/
theorem C37_braket (a b : ℕ) : braKet a b = braOf (.basis a) (valKet (.basis b)) := (bra_basis a b).symm

/-! ## Spaces of finite dimension -/

/-- C37 refuted for spaces with a finite number `d` of basis states: no assignment of values to the operators satisfies all the rules except the
trivial one: the rule `a a† → 1 + a† a` contradicts `a† |d-1> → 0`, and every `|j><k|` becomes zero. -/
theorem C37_refuted_truncated {A : Type} [Ring A] [Algebra ℂ A] (d : ℕ) (v : Op → A)
    (hv : ∀ x y e, prodRule (some d) x y = some e → valOX v e = v x * v y) (j k : ℕ) (hj : j < d) (hk : k < d) : v (.sigma j k) = 0 := by
  obtain ⟨n, rfl⟩ : ∃ n, d = n + 1 := ⟨d - 1, by omega⟩
  -- the top level
  have top : v (.sigma n k) = 0 := by
    have h1 := hv .destroy .create _ rfl
    have h2 : v .create * v (.sigma n k) = 0 := by
      rw [← hv .create (.sigma n k) _ rfl]
      have : raiseJK (some (n + 1)) n k 1 0 = .zero := by
        unfold raiseJK
        have : inDim (some (n + 1)) ((n : ℤ) + 1) = false := by simp [inDim]
        rw [this]; rfl
      rw [this]
      simp [valOX]
    have h3 : v .create * (v .destroy * v (.sigma n k)) = (n : ℂ) • v (.sigma n k) := by
      rw [← hv .destroy (.sigma n k) _ rfl]
      cases n with
      | zero => simp [valOX, sq]
      | succ n =>
        · have : raiseJK (some (n + 1 + 1)) (n + 1) k (-1) 0 = .op (.sigma n k) := by
            unfold raiseJK
            have h1 : inDim (some (n + 1 + 1)) (((n + 1 : ℕ) : ℤ) + -1) = true := by simp [inDim]
            have h2 : inDim (some (n + 1 + 1)) ((k : ℤ) + 0) = true := by simp [inDim]; omega
            rw [h1, h2]
            simp
          rw [this]
          show v .create * (sq (n + 1) • v (.sigma n k)) = _
          rw [mul_smul_comm, ← hv .create (.sigma n k) _ rfl]
          have : raiseJK (some (n + 1 + 1)) n k 1 0 = .op (.sigma (n + 1) k) := by
            unfold raiseJK
            have h1 : inDim (some (n + 1 + 1)) ((n : ℤ) + 1) = true := by simp [inDim]; omega
            have h2 : inDim (some (n + 1 + 1)) ((k : ℤ) + 0) = true := by simp [inDim]; omega
            rw [h1, h2]
            simp
          rw [this]
          show sq (n + 1) • (sq (n + 1) • v (.sigma (n + 1) k)) = _
          rw [smul_smul, sq_sq]
    have h4 : v .destroy * (v .create * v (.sigma n k)) = v (.sigma n k) + v .create * (v .destroy * v (.sigma n k)) := by
      rw [← mul_assoc, ← h1, ← mul_assoc]
      show (1 + v .create * v .destroy) * _ = _
      rw [add_mul, one_mul]
    rw [h2, mul_zero, h3] at h4
    have h5 : ((n : ℂ) + 1) • v (.sigma n k) = 0 := by rw [add_smul, one_smul, add_comm, ← h4]
    have h6 : (n : ℂ) + 1 ≠ 0 := by exact_mod_cast Nat.succ_ne_zero n
    exact (smul_eq_zero.mp h5).resolve_left h6
  rw [show v (.sigma j k) = v (.sigma j n) * v (.sigma n k) from by
    rw [← hv (.sigma j n) (.sigma n k) _ rfl]; simp [deltaOp, valOX], top, mul_zero]

/-- the operators on the `d` lowest levels, as matrices; `w` gives values to the displacement operators -/
noncomputable def valFin (d : ℕ) (w : ℂ → Matrix (Fin d) (Fin d) ℂ) : Op → Matrix (Fin d) (Fin d) ℂ
  | .create => fun i j => if i.1 = j.1 + 1 then sq i else 0
  | .destroy => fun i j => if j.1 = i.1 + 1 then sq j else 0
  | .sigma a b => fun i j => if i.1 = a ∧ j.1 = b then 1 else 0
  | .phase u => fun i j => if i = j then Complex.exp (Complex.I * u * i) else 0
  | .displace u => w u

/-- the operator is neither a displacement nor a projector on levels that do not exist -/
def Op.fits (d : ℕ) : Op → Prop
  | .sigma a b => a < d ∧ b < d
  | .displace _ => False
  | _ => True

theorem mul_single_left {d : ℕ} (M N : Matrix (Fin d) (Fin d) ℂ) (i l m : Fin d) (h : ∀ m', m' ≠ m → M i m' = 0) :
    (M * N) i l = M i m * N m l := by
  rw [Matrix.mul_apply, Finset.sum_eq_single m]
  · intro b _ hb
    rw [h b hb, zero_mul]
  · intro h; exact absurd (Finset.mem_univ _) h

theorem mul_single_right {d : ℕ} (M N : Matrix (Fin d) (Fin d) ℂ) (i l m : Fin d) (h : ∀ m', m' ≠ m → N m' l = 0) :
    (M * N) i l = M i m * N m l := by
  rw [Matrix.mul_apply, Finset.sum_eq_single m]
  · intro b _ hb
    rw [h b hb, mul_zero]
  · intro h; exact absurd (Finset.mem_univ _) h

/-- C37 (partial): on a space with `d` basis states, the rules for products of projectors, ladder operators and phase operators are identities
for the `d x d` matrices of these operators, except the rule `a a† → 1 + a† a` (see `C37_refuted_truncated`) and those for displacements. -/
theorem C37_truncated_partial (d : ℕ) (w : ℂ → Matrix (Fin d) (Fin d) ℂ) {x y : Op} {e : OX} (hx : x.fits d) (hy : y.fits d)
    (hne : ¬ (x = .destroy ∧ y = .create)) (h : prodRule (some d) x y = some e) : valOX (valFin d w) e = valFin d w x * valFin d w y := by
  have hphase : ∀ u, valOX (valFin d w) (phaseCreate u) = valFin d w (.phase u) := by
    intro u
    unfold phaseCreate
    split
    · rename_i h; subst h
      ext i j
      simp [valOX, valFin, Matrix.one_apply]
    · rfl
  have hraise : ∀ (j k : ℕ) (dj dk : ℤ) (i l : Fin d), valOX (valFin d w) (raiseJK (some d) j k dj dk) i l
      = if (i.1 : ℤ) = j + dj ∧ (l.1 : ℤ) = k + dk then 1 else 0 := by
    intro j k dj dk i l
    unfold raiseJK
    by_cases hc : (inDim (some d) (j + dj) && inDim (some d) (k + dk)) = true
    · rw [if_pos hc]
      simp only [Bool.and_eq_true, inDim, decide_eq_true_eq] at hc
      show (if i.1 = ((j : ℤ) + dj).toNat ∧ l.1 = ((k : ℤ) + dk).toNat then (1 : ℂ) else 0) = _
      congr 1
      apply propext
      omega
    · rw [if_neg hc]
      simp only [Bool.and_eq_true, inDim, decide_eq_true_eq] at hc
      rw [if_neg]
      · rfl
      · have := i.2; have := l.2
        omega
  cases x <;> cases y <;> simp only [prodRule] at h
  all_goals first | (cases h; done) | injection h with h
  all_goals subst h
  all_goals first | (exact absurd hx id) | (exact absurd hy id) | skip
  · -- create, sigma
    rename_i a b
    ext i l
    rw [mul_single_right _ _ i l ⟨a, hy.1⟩ (fun m hm => if_neg (fun e => hm (Fin.ext e.1)))]
    show sq (a + 1) * (valOX (valFin d w) (raiseJK (some d) a b 1 0)) i l = (if i.1 = a + 1 then sq i else 0) * (if a = a ∧ l.1 = b then 1 else 0)
    rw [hraise]
    by_cases h1 : i.1 = a + 1 <;> by_cases h2 : l.1 = b
    · simp [h1, h2]
    · simp [h2]
    · simp [h1]; omega
    · simp [h2]
  · exact absurd ⟨rfl, rfl⟩ hne
  · -- destroy, sigma
    rename_i a b
    ext i l
    rw [mul_single_right _ _ i l ⟨a, hy.1⟩ (fun m hm => if_neg (fun e => hm (Fin.ext e.1)))]
    show sq a * (valOX (valFin d w) (raiseJK (some d) a b (-1) 0)) i l = (if a = i.1 + 1 then sq a else 0) * (if a = a ∧ l.1 = b then 1 else 0)
    rw [hraise]
    by_cases h1 : a = i.1 + 1 <;> by_cases h2 : l.1 = b
    · simp [h1, h2]
    · simp [h2]
    · simp [h1]; intro h; omega
    · simp [h2]
  · -- destroy, phase
    rename_i u
    ext i l
    rw [mul_single_right _ _ i l l (fun m hm => if_neg hm)]
    show Complex.exp (Complex.I * u) * (valOX (valFin d w) (phaseCreate u) * valFin d w .destroy) i l = _
    rw [hphase, mul_single_left _ _ i l i (fun m hm => if_neg (fun e => hm e.symm))]
    show Complex.exp (Complex.I * u) * ((if i = i then Complex.exp (Complex.I * u * i) else 0) * (if l.1 = i.1 + 1 then sq l else 0))
      = (if l.1 = i.1 + 1 then sq l else 0) * (if l = l then Complex.exp (Complex.I * u * l) else 0)
    by_cases h1 : l.1 = i.1 + 1
    · simp [h1, mul_add, Complex.exp_add]; ring
    · simp [h1]
  · -- sigma, create
    rename_i a b
    ext i l
    rw [mul_single_left _ _ i l ⟨b, hx.2⟩ (fun m hm => if_neg (fun e => hm (Fin.ext e.2)))]
    show sq b * (valOX (valFin d w) (raiseJK (some d) a b 0 (-1))) i l = (if i.1 = a ∧ b = b then 1 else 0) * (if b = l.1 + 1 then sq b else 0)
    rw [hraise]
    by_cases h1 : b = l.1 + 1 <;> by_cases h2 : i.1 = a
    · simp [h1, h2]
    · simp [h2]
    · simp [h1]; intro _ h; omega
    · simp [h2]
  · -- sigma, destroy
    rename_i a b
    ext i l
    rw [mul_single_left _ _ i l ⟨b, hx.2⟩ (fun m hm => if_neg (fun e => hm (Fin.ext e.2)))]
    show sq (b + 1) * (valOX (valFin d w) (raiseJK (some d) a b 0 1)) i l = (if i.1 = a ∧ b = b then 1 else 0) * (if l.1 = b + 1 then sq l else 0)
    rw [hraise]
    by_cases h1 : l.1 = b + 1 <;> by_cases h2 : i.1 = a
    · simp [h1, h2]
    · simp [h2]
    · simp [h1]; intro _ h; omega
    · simp [h2]
  · -- sigma, sigma
    rename_i a b a' b'
    ext i l
    rw [mul_single_left _ _ i l ⟨b, hx.2⟩ (fun m hm => if_neg (fun e => hm (Fin.ext e.2)))]
    show (valOX (valFin d w) (deltaOp b a' (.op (.sigma a b')))) i l = (if i.1 = a ∧ b = b then 1 else 0) * (if b = a' ∧ l.1 = b' then 1 else 0)
    unfold deltaOp
    split
    · rename_i h; subst h
      show (if i.1 = a ∧ l.1 = b' then (1 : ℂ) else 0) = _
      by_cases h1 : i.1 = a <;> by_cases h2 : l.1 = b' <;> simp [h1, h2]
    · rename_i h
      simp [valOX, h]
  · -- sigma, phase
    rename_i a b u
    ext i l
    rw [mul_single_right _ _ i l l (fun m hm => if_neg hm)]
    show Complex.exp (Complex.I * u * b) * (if i.1 = a ∧ l.1 = b then 1 else 0) = (if i.1 = a ∧ l.1 = b then 1 else 0) * (if l = l then Complex.exp (Complex.I * u * l) else 0)
    by_cases h2 : l.1 = b
    · simp [h2]
    · simp [h2]
  · -- phase, create
    rename_i u
    ext i l
    rw [mul_single_left _ _ i l i (fun m hm => if_neg (fun e => hm e.symm))]
    show Complex.exp (Complex.I * u) * (valFin d w .create * valOX (valFin d w) (phaseCreate u)) i l = _
    rw [hphase, mul_single_right _ _ i l l (fun m hm => if_neg hm)]
    show Complex.exp (Complex.I * u) * ((if i.1 = l.1 + 1 then sq i else 0) * (if l = l then Complex.exp (Complex.I * u * l) else 0))
      = (if i = i then Complex.exp (Complex.I * u * i) else 0) * (if i.1 = l.1 + 1 then sq i else 0)
    by_cases h1 : i.1 = l.1 + 1
    · simp [h1, mul_add, Complex.exp_add]; ring
    · simp [h1]
  · -- phase, sigma
    rename_i u a b
    ext i l
    rw [mul_single_left _ _ i l i (fun m hm => if_neg (fun e => hm e.symm))]
    show Complex.exp (Complex.I * u * a) * (if i.1 = a ∧ l.1 = b then 1 else 0) = (if i = i then Complex.exp (Complex.I * u * i) else 0) * (if i.1 = a ∧ l.1 = b then 1 else 0)
    by_cases h2 : i.1 = a
    · simp [h2]
    · simp [h2]
  · -- phase, phase
    rename_i u v
    ext i l
    rw [hphase, mul_single_left _ _ i l i (fun m hm => if_neg (fun e => hm e.symm))]
    show (if i = l then Complex.exp (Complex.I * (u + v) * i) else 0)
      = (if i = i then Complex.exp (Complex.I * u * i) else 0) * (if i = l then Complex.exp (Complex.I * v * i) else 0)
    by_cases h : i = l
    · simp [h, ← Complex.exp_add]; congr 1; ring
    · simp [h]

/-! ## Instances -/

/-- concrete rules: `a† |2><3|`, `a |0><3| = 0`, `|1><2| |2><5|`, and one that vanishes -/
example : valOX valOp (.smul (sq 3) (.op (.sigma 3 3))) = up * sig 2 3 := C37_products (x := .create) (y := .sigma 2 3) rfl
example : valOX valOp (.op (.sigma 1 5)) = sig 1 2 * sig 2 5 := C37_products (x := .sigma 1 2) (y := .sigma 2 5) rfl
example : valOX valOp .zero = sig 1 2 * sig 3 5 := C37_products (x := .sigma 1 2) (y := .sigma 3 5) rfl

/-- the space with three levels: `a† |2><0| = 0`, `a† |1><0| = √2 |2><0|` -/
example (w : ℂ → Matrix (Fin 3) (Fin 3) ℂ) : valOX (valFin 3 w) (.smul (sq 3) .zero) = valFin 3 w .create * valFin 3 w (.sigma 2 0) :=
  C37_truncated_partial 3 w (x := .create) (y := .sigma 2 0) trivial ⟨by decide, by decide⟩ (by simp) rfl
example (w : ℂ → Matrix (Fin 3) (Fin 3) ℂ) : valOX (valFin 3 w) (.smul (sq 2) (.op (.sigma 2 0))) = valFin 3 w .create * valFin 3 w (.sigma 1 0) :=
  C37_truncated_partial 3 w (x := .create) (y := .sigma 1 0) trivial ⟨by decide, by decide⟩ (by simp) rfl

/-- kets on the `d` lowest levels, as vectors; `c` gives values to the coherent states -/
noncomputable def valFinKet (d : ℕ) (w : ℂ → Matrix (Fin d) (Fin d) ℂ) (c : ℂ → Fin d → ℂ) : KX → Fin d → ℂ
  | .zero => 0
  | .ket (.basis n) => fun i => if i.1 = n then 1 else 0
  | .ket (.coherent u) => c u
  | .smul a k => a • valFinKet d w c k
  | .app e k => (valOX (valFin d w) e).mulVec (valFinKet d w c k)

theorem mulVec_basis {d : ℕ} (M : Matrix (Fin d) (Fin d) ℂ) (n : ℕ) (hn : n < d) (i : Fin d) :
    M.mulVec (fun j => if j.1 = n then 1 else 0) i = M i ⟨n, hn⟩ := by
  show ∑ j, M i j * (if j.1 = n then (1 : ℂ) else 0) = _
  rw [Finset.sum_eq_single ⟨n, hn⟩]
  · simp
  · intro j _ hj
    rw [if_neg (fun h => hj (Fin.ext h)), mul_zero]
  · intro h; exact absurd (Finset.mem_univ _) h

/-- C37 (partial: without displacements and coherent states): on a space with `d` basis states, the rules for a projector, ladder operator or
phase operator acting on a basis state agree with the `d x d` matrices; in particular `a† |d-1> → 0` and `a |0> → 0`. -/
theorem C37_kets_truncated_partial (d : ℕ) (w : ℂ → Matrix (Fin d) (Fin d) ℂ) (c : ℂ → Fin d → ℂ) {x : Op} {n : ℕ} {e : KX} (hx : x.fits d)
    (hn : n < d) (h : ketRule (some d) x (.basis n) = some e) : valFinKet d w c e = (valFin d w x).mulVec (valFinKet d w c (.ket (.basis n))) := by
  have hnext : ∀ (δ : ℤ) (i : Fin d), valFinKet d w c (nextKet (some d) n δ) i = if (i.1 : ℤ) = n + δ then 1 else 0 := by
    intro δ i
    unfold nextKet
    by_cases hc : inDim (some d) (n + δ) = true
    · rw [if_pos hc]
      simp only [Bool.and_eq_true, inDim, decide_eq_true_eq] at hc
      show (if i.1 = ((n : ℤ) + δ).toNat then (1 : ℂ) else 0) = _
      congr 1
      apply propext
      omega
    · rw [if_neg hc]
      simp only [Bool.and_eq_true, inDim, decide_eq_true_eq] at hc
      rw [if_neg]
      · rfl
      · have := i.2
        omega
  funext i
  rw [show valFinKet d w c (.ket (.basis n)) = fun j => if j.1 = n then 1 else 0 from rfl, mulVec_basis _ n hn]
  cases x <;> simp only [ketRule] at h
  case create =>
    injection h with h; subst h
    show sq (n + 1) * valFinKet d w c (nextKet (some d) n 1) i = if i.1 = n + 1 then sq i else 0
    rw [hnext]
    by_cases h1 : i.1 = n + 1
    · simp [h1]
    · rw [if_neg h1, if_neg (by omega), mul_zero]
  case destroy =>
    injection h with h; subst h
    show sq n * valFinKet d w c (nextKet (some d) n (-1)) i = if n = i.1 + 1 then sq n else 0
    rw [hnext]
    by_cases h1 : n = i.1 + 1
    · simp [h1]
    · rw [if_neg h1, if_neg (by omega), mul_zero]
  case sigma a b =>
    injection h with h; subst h
    unfold deltaKet
    show _ = if i.1 = a ∧ n = b then (1 : ℂ) else 0
    by_cases h1 : b = n
    · subst h1
      simp [valFinKet]
    · rw [if_neg h1, if_neg (fun h => h1 h.2.symm)]
      rfl
  case phase u =>
    injection h with h; subst h
    show Complex.exp (Complex.I * u * n) * (if i.1 = n then (1 : ℂ) else 0) = if i = ⟨n, hn⟩ then Complex.exp (Complex.I * u * i) else 0
    by_cases h1 : i.1 = n
    · rw [if_pos h1, if_pos (Fin.ext h1), h1, mul_one]
    · rw [if_neg h1, if_neg (fun h => h1 (congrArg Fin.val h)), mul_zero]
  case displace u => exact absurd hx id

/-- the case of the highest level -/
example : ketRule (some 3) .create (.basis 2) = some (.smul (sq (2 + 1)) .zero) := rfl

end QNET.Osc
