import Verif.Linear.Fock

/-! # C69: the hypotheses can be met; limits of `getABCD` -/

namespace QNET.Linear

open Finset
open QNET.Perm (Res Err)
open QNET.QAlg (QX Ctx val SoundCtx)
open QNET.SLH (getCoeffs coeffOf)

theorem plain_sound {A : Type} [Ring A] [Algebra ℂ A] (ρ : ℕ → A) : SoundCtx (Ctx.plain ℂ) ρ :=
  ⟨fun _ => List.Perm.refl _, fun _ => rfl, fun _ _ _ h => by simp [Ctx.plain] at h, fun _ _ h => by simp [Ctx.plain] at h,
    fun _ _ h => by simp [Ctx.plain] at h⟩

theorem expand_one : QAlg.expand (Ctx.plain ℂ) 1 .one = .ok .one := rfl

theorem getABCD_one (Ls eoms : List (QX ℂ)) (b : Bool) :
    getABCD (Ctx.plain ℂ) 1 [[.one]] Ls eoms b = .ok (arrays eoms.length 1 [[1]] Ls eoms b) := by
  have h : asComplex (Ctx.plain ℂ) 1 .one = .ok 1 := rfl
  simp only [getABCD, List.mapM_cons, List.mapM_nil, h]
  rfl

/-! ### A damped and squeezed cavity -/

/-- `H = (i/2) (a†² - a²)`: a degenerate parametric amplifier; sums and products of a† and a -/
noncomputable def sqH : QX ℂ := .plus [.scal (Complex.I / 2) (.times [crea 0, crea 0]), .scal (-(Complex.I / 2)) (.times [dest 0, dest 0])]

/-- its equation of motion with `L = 2 a`: `-2 a + a† - 2 b`. -/
noncomputable def sqEom : QX ℂ := .plus [.scal (-2) (dest 0), crea 0, .scal (-2) (nois 0)]

theorem sqEom_coeffs : getCoeffs sqEom = [(dest 0, -2), (crea 0, 1), (nois 0, -2)] := by
  simp [getCoeffs, sqEom, QAlg.summandsOf, QAlg.coeffMap, QAlg.addTerm, QAlg.split, dest, crea, nois]

theorem sqL_coeffs : getCoeffs (.scal 2 (dest 0)) = [(dest 0, 2)] := by
  simp [getCoeffs, QAlg.summandsOf, QAlg.coeffMap, QAlg.addTerm, QAlg.split, dest]

theorem sqEom_linear : LinearX 1 1 sqEom := by
  intro tc h
  rw [sqEom_coeffs] at h
  simp only [List.mem_cons, List.not_mem_nil, or_false] at h
  rcases h with rfl | rfl | rfl
  · exact .inr (.inr (.inl ⟨0, by omega, .inl rfl⟩))
  · exact .inr (.inr (.inl ⟨0, by omega, .inr rfl⟩))
  · exact .inr (.inr (.inr ⟨0, by omega, .inl rfl⟩))

theorem sqL_linear : LinearX 1 0 (.scal 2 (dest 0)) := by
  intro tc h
  rw [sqL_coeffs] at h
  simp only [List.mem_cons, List.not_mem_nil, or_false] at h
  subst h
  exact .inr (.inr (.inl ⟨0, by omega, .inl rfl⟩))

section
variable {A : Type} [Ring A] [StarRing A] [Algebra ℂ A] [StarModule ℂ A] {ρ : ℕ → A}

/-- `i [H, a] = a†` -/
theorem sqH_comm (hρ : Modes 1 1 ρ) : Complex.I • (val ρ sqH * ρ 0 - ρ 0 * val ρ sqH) = star (ρ 0) := by
  have h1 : ρ 1 = star (ρ 0) := hρ.crea 0 (by omega)
  have h2 : ρ 0 * star (ρ 0) - star (ρ 0) * ρ 0 = 1 := hρ.ccr 0 0 (by omega) (by omega)
  have h3 : ρ 0 * star (ρ 0) = star (ρ 0) * ρ 0 + 1 := by rw [← h2]; abel
  have h4 : ρ 0 * star (ρ 0) * star (ρ 0) = star (ρ 0) * star (ρ 0) * ρ 0 + (2 : ℂ) • star (ρ 0) := by
    rw [h3, add_mul, mul_assoc, h3, mul_add, mul_assoc, two_smul, one_mul, mul_one, add_assoc]
  have hI : Complex.I * (Complex.I / 2) = -(1 / 2) := by rw [← mul_div_assoc, Complex.I_mul_I]; ring
  simp only [sqH, QAlg.val, QAlg.vals, crea, dest, List.sum_cons, List.sum_nil, List.prod_cons, List.prod_nil, mul_one, add_zero, Nat.mul_zero, Nat.zero_add, h1]
  have e : ∀ X Y a : A, Complex.I • ((((Complex.I / 2 : ℂ)) • X + (-(Complex.I / 2) : ℂ) • Y) * a - a * (((Complex.I / 2 : ℂ)) • X + (-(Complex.I / 2) : ℂ) • Y))
      = (1 / 2 : ℂ) • (a * X - X * a) - (1 / 2 : ℂ) • (a * Y - Y * a) := by
    intro X Y a
    simp only [add_mul, mul_add, smul_mul_assoc, mul_smul_comm, smul_sub, smul_add, smul_smul, hI, mul_neg, neg_neg]
    module
  rw [e, ← mul_assoc, h4, ← mul_assoc, sub_self, smul_zero, sub_zero, add_sub_cancel_left, smul_smul]
  norm_num

theorem sq_triple : (triple ρ [[.one]] [.scal 2 (dest 0)] sqH).n = 1 ∧ (triple ρ [[.one]] [.scal 2 (dest 0)] sqH).S 0 0 = 1 ∧
    (triple ρ [[.one]] [.scal 2 (dest 0)] sqH).L 0 = (2 : ℂ) • ρ 0 ∧ (triple ρ [[.one]] [.scal 2 (dest 0)] sqH).H = val ρ sqH := by
  refine ⟨rfl, ?_, ?_, rfl⟩
  · simp [triple, SLH.mk', QAlg.val]
  · simp [triple, SLH.mk', QAlg.val, dest]

/-- the equation of motion is what `symbolic_heisenberg_eom` computes -/
theorem sq_eom (hρ : Modes 1 1 ρ) : EomAt ρ [[.one]] [.scal 2 (dest 0)] sqH 0 sqEom := by
  obtain ⟨tn, tS, tL, tH⟩ := sq_triple (ρ := ρ)
  have h2 : ρ 0 * star (ρ 0) - star (ρ 0) * ρ 0 = 1 := hρ.ccr 0 0 (by omega) (by omega)
  have h3 : ρ 0 * star (ρ 0) = star (ρ 0) * ρ 0 + 1 := by rw [← h2]; abel
  have h1 : ρ 1 = star (ρ 0) := hρ.crea 0 (by omega)
  have hc : star (2 : ℂ) = 2 := by simp
  unfold EomAt SLH.heisenbergNoise SLH.heisenberg
  rw [tn, tH]
  simp only [Finset.sum_range_one, tS, tL, Nat.mul_zero, sqH_comm hρ, Bool.false_eq_true, if_false, add_zero, star_smul, hc, star_one, mul_one]
  simp only [sqEom, QAlg.val, QAlg.vals, crea, dest, nois, List.sum_cons, List.sum_nil, add_zero, Nat.mul_zero, Nat.zero_add, h1]
  simp only [smul_mul_assoc, mul_smul_comm, h3, add_mul, mul_assoc, one_mul, smul_smul]
  simp only [← mul_assoc, h3]
  simp only [sub_self, smul_zero, add_zero, mul_zero]
  simp only [← smul_sub, show star (ρ 0) * ρ 0 - (star (ρ 0) * ρ 0 + 1) = -1 by abel, smul_mul_assoc, neg_mul, one_mul, smul_neg]
  simp only [mul_assoc]
  module

theorem sq_quadratic (hρ : Modes 1 1 ρ) (j : ℕ) (hj : j < 1) : ∃ (ν : ℂ) (M N : ℕ → ℂ), Complex.I • (val ρ sqH * ρ (5 * j) - ρ (5 * j) * val ρ sqH)
    = ν • (1 : A) + ∑ k ∈ range 1, M k • ρ (5 * k) + ∑ k ∈ range 1, N k • star (ρ (5 * k)) := by
  obtain rfl : j = 0 := by omega
  refine ⟨0, fun _ => 0, fun _ => 1, ?_⟩
  rw [Nat.mul_zero, sqH_comm hρ]
  simp

theorem sq_physical (hρ : Modes 1 1 ρ) : SLH.Physical (triple ρ [[.one]] [.scal 2 (dest 0)] sqH) := by
  obtain ⟨tn, tS, tL, tH⟩ := sq_triple (ρ := ρ)
  refine ⟨?_, ?_, ?_⟩
  · intro k l hk hl
    obtain rfl : k = 0 := by omega
    obtain rfl : l = 0 := by omega
    rw [tn, Finset.sum_range_one, tS]; simp
  · intro k l hk hl
    obtain rfl : k = 0 := by omega
    obtain rfl : l = 0 := by omega
    rw [tn, Finset.sum_range_one, tS]; simp
  · rw [tH]
    have h1 : ρ 1 = star (ρ 0) := hρ.crea 0 (by omega)
    simp only [sqH, QAlg.val, QAlg.vals, crea, dest, List.sum_cons, List.sum_nil, List.prod_cons, List.prod_nil, mul_one, add_zero, Nat.mul_zero, Nat.zero_add, h1]
    simp only [star_add, star_smul, star_mul, star_star, star_neg, star_div₀, Complex.star_def, Complex.conj_I, Complex.conj_ofNat]
    module

end

/-- all hypotheses of `C69_exact` and `C69_realizable` are met by the squeezed cavity -/
example : ∃ r, getABCD (Ctx.plain ℂ) 1 [[.one]] [.scal 2 (dest 0)] [sqEom] true = .ok r ∧ SoundCtx (Ctx.plain ℂ) fock ∧ Modes 1 1 fock ∧ Indep 1 1 fock ∧
    SLH.Physical (triple fock [[.one]] [.scal 2 (dest 0)] sqH) ∧ (∀ e ∈ [sqEom], LinearX 1 1 e) ∧
    (∀ i, i < 1 → LinearX 1 0 (([.scal 2 (dest 0)] : List (QX ℂ))[i]?.getD .zero)) ∧ EomAt fock [[.one]] [.scal 2 (dest 0)] sqH 0 sqEom :=
  ⟨_, getABCD_one _ _ _, plain_sound _, fock_modes 1 1, fock_indep 1 1, sq_physical (fock_modes 1 1), by simpa using sqEom_linear,
    fun i hi => by obtain rfl : i = 0 := by omega
                   exact sqL_linear, sq_eom (fock_modes 1 1)⟩

/-! ### A displaced cavity -/

/-- an amplitude of 3 for the mode -/
noncomputable def amp3 : ℕ → Option ℂ := fun _ => some 3

theorem disp_L : ([.scal 2 (dest 0)] : List (QX ℂ)).map (displace amp3) = [.scal 2 (.plus [dest 0, .scal 3 .one])] := by
  simp [displace, amp3, dest]

theorem ok_bind {α β : Type} (x : α) (f : α → Res β) : (Except.ok x >>= f) = f x := rfl

theorem ms_atom (n s : ℕ) (c : ℂ) (h1 : c ≠ 1) (h0 : c ≠ 0) : QAlg.mulScal (Ctx.plain ℂ) (n + 1) c (.atom s) = .ok (.scal c (.atom s)) := by
  simp [QAlg.mulScal, QAlg.mulScalStep, h1, h0]
theorem ms_one (n : ℕ) (c : ℂ) (h1 : c ≠ 1) (h0 : c ≠ 0) : QAlg.mulScal (Ctx.plain ℂ) (n + 1) c .one = .ok (.scal c .one) := by
  simp [QAlg.mulScal, QAlg.mulScalStep, h1, h0]
theorem ms_scal (n : ℕ) (c d : ℂ) (t : QX ℂ) (h1 : c ≠ 1) (h0 : c ≠ 0) : QAlg.mulScal (Ctx.plain ℂ) (n + 1) c (.scal d t) = QAlg.mulScal (Ctx.plain ℂ) n (c * d) t := by
  rw [QAlg.mulScal, QAlg.mulScalStep, if_neg h1, if_neg h0]
theorem ms_unit (n : ℕ) (t : QX ℂ) : QAlg.mulScal (Ctx.plain ℂ) (n + 1) 1 t = .ok t := by
  simp [QAlg.mulScal, QAlg.mulScalStep]

/-- `x a + y` with numbers `x` and `y` -/
noncomputable def affX (x y : ℂ) : QX ℂ := .plus [if x = 1 then dest 0 else .scal x (dest 0), .scal y .one]

theorem pc_aff (n : ℕ) (x y : ℂ) (hx : x ≠ 0) (hy : y ≠ 0) (hy1 : y ≠ 1) :
    QAlg.plusCreate (Ctx.plain ℂ) (n + 2) [if x = 1 then dest 0 else .scal x (dest 0), .scal y .one] = .ok (affX x y) := by
  have e : (QAlg.coeffMap (Engine.assoc QAlg.flatPlus [if x = 1 then dest 0 else .scal x (dest 0), .scal y .one])) = [(dest 0, x), (.one, y)] := by
    by_cases h : x = 1
    · subst h
      simp [Engine.assoc, QAlg.flatPlus, QAlg.coeffMap, QAlg.addTerm, QAlg.split, dest]
    · simp [h, Engine.assoc, QAlg.flatPlus, QAlg.coeffMap, QAlg.addTerm, QAlg.split, dest]
  rw [QAlg.plusCreate, QAlg.plusStep, show (Ctx.plain ℂ).sortPlus = id from rfl, id, e]
  have e1 : QAlg.mulScal (Ctx.plain ℂ) (n + 1) x (dest 0) = .ok (if x = 1 then dest 0 else .scal x (dest 0)) := by
    by_cases h : x = 1
    · subst h; rw [ms_unit, if_pos rfl]
    · rw [if_neg h]; exact ms_atom _ _ _ h hx
  simp only [List.mapM_cons, List.mapM_nil, e1, ms_one _ _ hy1 hy]
  have e2 : (if x = 1 then dest 0 else (.scal x (dest 0) : QX ℂ)) ≠ .zero := by split <;> simp [dest]
  simp only [ok_bind, pure, Except.pure]
  rw [List.filter_eq_self.mpr]
  · rfl
  · intro a ha
    simp only [List.mem_cons, List.not_mem_nil, or_false] at ha
    rcases ha with rfl | rfl
    · simpa using e2
    · simp

theorem ex_atom (n s : ℕ) : QAlg.expand (Ctx.plain ℂ) (n + 1) (.atom s) = .ok (.atom s) := rfl
theorem ex_one (n : ℕ) : QAlg.expand (Ctx.plain ℂ) (n + 1) .one = .ok .one := rfl

theorem ex_scal (n : ℕ) (c : ℂ) (t : QX ℂ) (ht : t = .one ∨ ∃ s, t = .atom s) (h1 : c ≠ 1) (h0 : c ≠ 0) :
    QAlg.expand (Ctx.plain ℂ) (n + 2) (.scal c t) = .ok (.scal c t) := by
  rw [QAlg.expand, QAlg.expandStep]
  rcases ht with rfl | ⟨s, rfl⟩
  · simp only [ex_one, ok_bind, QAlg.summandsOf, List.mapM_cons, List.mapM_nil, ms_one _ _ h1 h0]
    rfl
  · simp only [ex_atom, ok_bind, QAlg.summandsOf, List.mapM_cons, List.mapM_nil, ms_atom _ _ _ h1 h0]
    rfl

theorem ex_aff (n : ℕ) (x y : ℂ) (hx : x ≠ 0) (hy : y ≠ 0) (hy1 : y ≠ 1) : QAlg.expand (Ctx.plain ℂ) (n + 3) (affX x y) = .ok (affX x y) := by
  rw [affX, QAlg.expand, QAlg.expandStep]
  have e1 : QAlg.expand (Ctx.plain ℂ) (n + 2) (if x = 1 then dest 0 else .scal x (dest 0)) = .ok (if x = 1 then dest 0 else .scal x (dest 0)) := by
    by_cases h : x = 1
    · simp only [h, if_true]; rfl
    · simp only [h, if_false]
      exact ex_scal _ _ _ (.inr ⟨_, rfl⟩) h hx
  simp only [List.mapM_cons, List.mapM_nil, e1, ex_scal _ _ _ (.inl rfl) hy1 hy, ok_bind, pure, Except.pure]
  exact pc_aff _ _ _ hx hy hy1

theorem disp_expand : QAlg.expand (Ctx.plain ℂ) 6 (.scal 2 (.plus [dest 0, .scal 3 .one])) = .ok (.plus [.scal 2 (dest 0), .scal 6 .one]) := by
  have a1 : (.plus [dest 0, .scal 3 .one] : QX ℂ) = affX 1 3 := by simp [affX]
  have a2 : (.plus [.scal 2 (dest 0), .scal 6 .one] : QX ℂ) = affX 2 6 := by simp [affX]
  rw [QAlg.expand, QAlg.expandStep, a1]
  rw [ex_aff 2 1 3 (by norm_num) (by norm_num) (by norm_num), ok_bind, ← a1]
  have e1 : QAlg.mulScal (Ctx.plain ℂ) 5 2 (dest 0) = .ok (.scal 2 (dest 0)) := ms_atom _ _ _ (by norm_num) (by norm_num)
  have e2 : QAlg.mulScal (Ctx.plain ℂ) 5 2 (.scal 3 .one) = .ok (.scal 6 .one) := by
    rw [ms_scal _ _ _ _ (by norm_num) (by norm_num), ms_one _ _ (by norm_num) (by norm_num)]
    norm_num
  simp only [QAlg.summandsOf, List.mapM_cons, List.mapM_nil, e1, e2, ok_bind, pure, Except.pure, QAlg.expandEnd, QAlg.foldFirst, List.foldlM, QAlg.add]
  have e3 := pc_aff 3 2 6 (by norm_num) (by norm_num) (by norm_num)
  rw [if_neg (by norm_num)] at e3
  rw [e3, ok_bind, ok_bind, a2]
  exact ex_aff 2 2 6 (by norm_num) (by norm_num) (by norm_num)

/-- the equation of motion of the displaced cavity, `-2 a + a† - 2 b - 3`: the constant is `-2 * 3 + conj 3` -/
noncomputable def sqEom' : QX ℂ := .plus [.scal (-2) (dest 0), crea 0, .scal (-2) (nois 0), .scal (-3) .one]

theorem sqEom'_linear : LinearX 1 1 sqEom' := by
  have h0 : getCoeffs sqEom' = [(dest 0, -2), (crea 0, 1), (nois 0, -2), (.one, -3)] := by
    simp [getCoeffs, sqEom', QAlg.summandsOf, QAlg.coeffMap, QAlg.addTerm, QAlg.split, dest, crea, nois]
  intro tc h
  rw [h0] at h
  simp only [List.mem_cons, List.not_mem_nil, or_false] at h
  rcases h with rfl | rfl | rfl | rfl
  · exact .inr (.inr (.inl ⟨0, by omega, .inl rfl⟩))
  · exact .inr (.inr (.inl ⟨0, by omega, .inr rfl⟩))
  · exact .inr (.inr (.inr ⟨0, by omega, .inl rfl⟩))
  · exact .inr (.inl rfl)

theorem sqL'_linear : LinearX 1 0 (.plus [.scal 2 (dest 0), .scal 6 .one]) := by
  have h0 : getCoeffs (.plus [.scal 2 (dest 0), .scal 6 .one]) = [(dest 0, 2), (.one, 6)] := by
    simp [getCoeffs, QAlg.summandsOf, QAlg.coeffMap, QAlg.addTerm, QAlg.split, dest]
  intro tc h
  rw [h0] at h
  simp only [List.mem_cons, List.not_mem_nil, or_false] at h
  rcases h with rfl | rfl
  · exact .inr (.inr (.inl ⟨0, by omega, .inl rfl⟩))
  · exact .inr (.inl rfl)

theorem sq_eom' {A : Type} [Ring A] [StarRing A] [Algebra ℂ A] [StarModule ℂ A] {ρ : ℕ → A} (hρ : Modes 1 1 ρ) :
    EomAt ρ (([[.one]] : List (List (QX ℂ))).map (List.map (displace amp3))) (([.scal 2 (dest 0)] : List (QX ℂ)).map (displace amp3)) (displace amp3 sqH) 0 sqEom' := by
  unfold EomAt
  have h1 : (fun k => ρ (5 * k + 2)) = fun k => displaced amp3 ρ (5 * k + 2) := funext (fun k => (displaced_2 amp3 ρ k).symm)
  rw [triple_displace, ← heisenbergNoise_shift _ _ 3, h1]
  have h2 := sq_eom (hρ.displaced amp3)
  unfold EomAt at h2
  have h3 : displaced amp3 ρ (5 * 0) = ρ (5 * 0) + (3 : ℂ) • 1 := displaced_0 amp3 ρ 0
  have h4 : displaced amp3 ρ (5 * 0 + 1) = ρ (5 * 0 + 1) + (3 : ℂ) • 1 := by
    rw [displaced_1 amp3 ρ 0]; simp [amp3]
  have h5 : displaced amp3 ρ (5 * 0 + 2) = ρ (5 * 0 + 2) := displaced_2 amp3 ρ 0
  rw [← h3, ← h2]
  simp only [sqEom, sqEom', QAlg.val, QAlg.vals, crea, dest, nois, List.sum_cons, List.sum_nil, add_zero, h3, h4, h5]
  module

/-- all hypotheses of `C69_displaced` are met by the displaced squeezed cavity -/
example : ∃ r r', getABCD (Ctx.plain ℂ) 6 [[.one]] [.scal 2 (dest 0)] [sqEom] true = .ok r ∧
    getABCD (Ctx.plain ℂ) 6 [[.one]] [.plus [.scal 2 (dest 0), .scal 6 .one]] [sqEom'] true = .ok r' ∧ r'.a 0 = r.a 0 - 3 ∧ r'.c 0 = r.c 0 + 6 := by
  have g : ∀ (Ls eoms : List (QX ℂ)) (b : Bool), getABCD (Ctx.plain ℂ) 6 [[.one]] Ls eoms b = .ok (arrays eoms.length 1 [[1]] Ls eoms b) := by
    intro Ls eoms b
    have h : asComplex (Ctx.plain ℂ) 6 .one = .ok 1 := rfl
    simp only [getABCD, List.mapM_cons, List.mapM_nil, h]
    rfl
  have h := C69_displaced (A := Fock) (S := [[.one]]) (Ls := [.scal 2 (dest 0)]) (eoms := [sqEom]) (Ls' := [.plus [.scal 2 (dest 0), .scal 6 .one]]) (eoms' := [sqEom']) (H := sqH) amp3 (plain_sound fock) (fock_modes 1 1)
    (fock_indep 1 1) (g [.scal 2 (dest 0)] [sqEom] true) (g _ _ true) rfl
    (fun i hi => by obtain rfl : i = 0 := by simpa using hi
                    exact sqL_linear) (by simpa using sqEom_linear)
    (fun i hi => by obtain rfl : i = 0 := by simpa using hi
                    exact sqL'_linear) (by simpa using sqEom'_linear)
    (by rw [disp_L]; simp only [List.mapM_cons, List.mapM_nil, disp_expand]; rfl)
    (fun j hj => by obtain rfl : j = 0 := by simpa using hj
                    exact sq_eom ((fock_modes 1 1).displaced amp3))
    (fun j hj => by obtain rfl : j = 0 := by simpa using hj
                    exact sq_eom' (fock_modes 1 1))
  refine ⟨_, _, g _ _ _, g _ _ _, ?_, ?_⟩
  · have e0 : coeffOf (getCoeffs sqEom) (dest 0) = -2 := by rw [sqEom_coeffs]; simp [coeffOf]
    have e1 : coeffOf (getCoeffs sqEom) (crea 0) = 1 := by rw [sqEom_coeffs]; simp [coeffOf, dest, crea]
    rw [h.2.2.2.2.1 0 (by simp)]
    simp [arrays, blk, coef, amps, amp3, Finset.sum_range_succ, e0, e1]
    ring
  · have e0 : coeffOf (getCoeffs (.scal 2 (dest 0))) (dest 0) = 2 := by rw [sqL_coeffs]; simp [coeffOf]
    have e1 : coeffOf (getCoeffs (.scal 2 (dest 0))) (crea 0) = 0 := by rw [sqL_coeffs]; simp [coeffOf, dest, crea]
    rw [h.2.2.2.2.2 0 (by simp)]
    simp [arrays, blk, coef, amps, amp3, Finset.sum_range_succ, e0, e1]
    norm_num

/-- C69 refuted for `doubled_up=False`: for the squeezed cavity, the term `a†` of the equation of motion is dropped without an error; the arrays do not describe
the dynamics. (The docstring says that doubling up is necessary for such systems, but nothing checks it.) -/
theorem C69_active_refuted : ∃ r, getABCD (Ctx.plain ℂ) 1 [[.one]] [.scal 2 (dest 0)] [sqEom] false = .ok r ∧ EomAt fock [[.one]] [.scal 2 (dest 0)] sqH 0 sqEom ∧
    val fock sqEom ≠ ∑ k ∈ range 1, r.A 0 k • modeVec 1 fock k + r.a 0 • 1 + ∑ k ∈ range 1, r.B 0 k • fieldVec 1 fock k := by
  refine ⟨_, getABCD_one _ _ _, sq_eom (fock_modes 1 1), fun h => ?_⟩
  have h1 := linear_val (fock_modes 1 1) sqEom_linear
  have h2 : ∑ k ∈ range 1, (arrays 1 1 [[1]] [.scal 2 (dest 0)] [sqEom] false).A 0 k • modeVec 1 fock k + (arrays 1 1 [[1]] [.scal 2 (dest 0)] [sqEom] false).a 0 • 1
      + ∑ k ∈ range 1, (arrays 1 1 [[1]] [.scal 2 (dest 0)] [sqEom] false).B 0 k • fieldVec 1 fock k
      = lin 1 1 fock ((arrays 1 1 [[1]] [.scal 2 (dest 0)] [sqEom] false).a 0) ((arrays 1 1 [[1]] [.scal 2 (dest 0)] [sqEom] false).A 0) (fun _ => 0)
        ((arrays 1 1 [[1]] [.scal 2 (dest 0)] [sqEom] false).B 0) (fun _ => 0) := by
    simp only [lin, Finset.sum_range_one, zero_smul, add_zero]
    rw [modeVec_1 (by omega), fieldVec_1 (by omega)]
    abel
  have h3 := ((fock_indep 1 1).unique ((h1.symm.trans h).trans h2)).2.1 0 (by omega)
  have h4 : coeffOf (getCoeffs sqEom) (crea 0) = 1 := by
    rw [sqEom_coeffs]; simp [coeffOf, dest, crea]
  exact one_ne_zero (h4.symm.trans h3.2)

/-- C69 refuted for coupling operators that are not expanded: without `a0`, `getABCD` does not expand `L`, and `get_coeffs` is called without
`expand=True`, so that for `L = 2 (a + 1)` (which is not expanded automatically) both `C` and `c` are zero. -/
theorem C69_unexpanded_refuted (eoms : List (QX ℂ)) : QAlg.mulScal (Ctx.plain ℂ) 1 2 (.plus [dest 0, .one]) = .ok (.scal 2 (.plus [dest 0, .one])) ∧
    ∃ r, getABCD (Ctx.plain ℂ) 1 [[.one]] [.scal 2 (.plus [dest 0, .one])] eoms true = .ok r ∧ (∀ k, k < 2 * eoms.length → r.C 0 k = 0) ∧ r.c 0 = 0 ∧
      val fock (.scal 2 (.plus [dest 0, .one])) = (2 : ℂ) • fock 0 + (2 : ℂ) • 1 := by
  refine ⟨?_, _, getABCD_one _ _ _, ?_, ?_, ?_⟩
  · rw [QAlg.mulScal, QAlg.mulScalStep, if_neg (by norm_num), if_neg (by norm_num)]
    rw [if_neg (by norm_num)]
  · have hg : getCoeffs (.scal 2 (.plus [dest 0, .one])) = [(.plus [dest 0, .one], 2)] := by
      simp [getCoeffs, QAlg.summandsOf, QAlg.coeffMap, QAlg.addTerm, QAlg.split]
    have h : ∀ (t : ℕ → QX ℂ) (k : ℕ), (∀ l, t k ≠ .plus l) → coef [.scal 2 (.plus [dest 0, .one])] t 0 k = 0 := by
      intro t k ht
      simp only [coef, List.getElem?_cons_zero, Option.getD_some, hg]
      exact coeffOf_not_mem (by simpa using ht _)
    intro k _
    simp only [arrays, if_true, blk, if_pos Nat.zero_lt_one]
    split
    · exact h _ _ (by simp [dest])
    · exact h _ _ (by simp [crea])
  · have hg : getCoeffs (.scal 2 (.plus [dest 0, .one])) = [(.plus [dest 0, .one], 2)] := by
      simp [getCoeffs, QAlg.summandsOf, QAlg.coeffMap, QAlg.addTerm, QAlg.split]
    simp only [arrays, if_true, blkV, if_pos Nat.zero_lt_one, coef, List.getElem?_cons_zero, Option.getD_some, hg]
    exact coeffOf_not_mem (by simp)
  · simp [QAlg.val, QAlg.vals, dest]

end QNET.Linear
