import Verif.Circuit.Thm
import Verif.Util.KernelRfl

/-!
# C12, and the limits of C17 and C18
-/

namespace QNET.Circuit

open QNET.Perm QNET.CPerm Inst

variable {A : Type} [Ring A] [StarRing A] [Algebra ℂ A] [StarModule ℂ A]

/-! ### C12 -/

/-- C12: the factorisation of `permutation << rhs` is an identity of circuits, for every circuit `rhs` that the code can build from
symbols, permutations and identities. -/
theorem C12_factorization (ρ : Valuation A) {e : Expr A} {X : SLH A} {rhs a b c : Circ A} {p : List ℕ} {f : ℕ} (hw : e.WellFormed)
    (hsym : e.Symbolic) (hX : e.eval ρ.val = .ok X) (hr : simplify false f e = .ok rhs) (hp : CPerm.create p = .ok (.perm p))
    (hd : p.length = e.channels) (h : factorizeForRhs (opsAt false f) p rhs = .ok (a, b, c)) :
    ∃ P Y Q : SLH A, a.toSLH ρ.val = .ok P ∧ b.toSLH ρ.val = .ok Y ∧ c.toSLH ρ.val = .ok Q ∧
      P.n = p.length ∧ Y.n = p.length ∧ Q.n = p.length ∧
      SLH.series P (SLH.series Y Q) = SLH.series (SLH.ofPerm p) X := by
  obtain ⟨t, e1, e2, e3⟩ := mean_of_eval (ρ := ρ) (leaf := fun _ => none) (h1 := fun _ _ h => nomatch h) (h2 := fun _ _ _ _ h => nomatch h)
    (h3 := fun _ _ _ _ h => nomatch h) (h4 := fun _ _ h => nomatch h) (h5 := fun _ _ _ _ _ _ h => nomatch h) e X hw (leavesIn_symbolic _ e hsym) hX
  have hst : CircAlg.Strict (symAlg ρ) false := Or.inr (fun _ => rfl)
  have hv := CircAlg.simplify_sound (M := symAlg ρ) hst e1 hr
  have hp' : Reachable (.perm p) := ⟨_, hp⟩
  have hdt : t.1.n = p.length := by rw [e2, e3, hd]
  obtain ⟨s, u, v, v1, v2, v3, d1, d2, d3, key⟩ :=
    CircAlg.factorizeForRhs_sound (M := symAlg ρ) (CircAlg.opsAt_sound hst f) hp' hv hdt h
  have lf : ∀ (c : Circ A) (t : T A), (symAlg ρ).den c = some t → c.toSLH ρ.val = .ok t.1 :=
    fun c t => toSLH_of_den (leaf := fun _ => none) (fun _ _ h => (nomatch (h : none = some _))) c t
  refine ⟨s.1, u.1, v.1, lf _ _ v1, lf _ _ v2, lf _ _ v3, d1, d2, d3, ?_⟩
  have d1' : s.1.n = p.length := d1
  have d2' : u.1.n = p.length := d2
  have d3' : v.1.n = p.length := d3
  have k := congrArg Subtype.val (show Inst.series s (Inst.series u v) = Inst.series (Inst.perm p) t from key)
  have hval : Valid p := hp'.valid
  have hser : ∀ x y : T A, x.1.n = y.1.n → (Inst.series x y).1 = SLH.series x.1 y.1 := by
    intro x y hxy; unfold Inst.series; rw [dif_pos hxy]
  have k1 := hser u v (by omega)
  have k2 := hser s (Inst.series u v) (d1'.trans ((n_series (show T A from u) (show T A from v)).trans d2').symm)
  have k3 := hser (Inst.perm p) t (by rw [n_perm, hdt])
  rw [k2, k1, k3] at k
  have hpv : (Inst.perm p : T A).1 = SLH.ofPerm p := by unfold Inst.perm; rw [dif_pos hval]
  rw [hpv, e2] at k
  exact k

/-! ### C18 -/

/-- C18: a series product of circuits with unequal channel numbers raises `ValueError`, provided neither of the two is an identity
circuit (operands are not themselves series products, those having been flattened). -/
theorem C18_mismatch_error_partial {strict : Bool} {f : ℕ} {ops : List (Circ A)} {a b : Circ A} (hflat : ∀ c ∈ ops, ∀ l, c ≠ .series l)
    (ha : a ∈ ops) (hb : b ∈ ops) (hne : a.cdim ≠ b.cdim) (hai : a ≠ cid a.cdim) (hbi : b ≠ cid b.cdim) :
    (opsAt strict (f + 1)).series ops = .error .valueError := by
  have hassoc : Engine.assoc flatSeries ops = ops := by
    unfold Engine.assoc
    have : ∀ l : List (Circ A), (∀ c ∈ l, ∀ m, c ≠ .series m) → l.flatMap (fun o => (flatSeries o).getD [o]) = l := by
      intro l
      induction l with
      | nil => intro _; rfl
      | cons c l ih =>
        intro h
        rw [List.flatMap_cons, ih (fun d hd => h d (by simp [hd]))]
        have hc := h c (by simp)
        cases c <;> first | rfl | exact absurd rfl (hc _)
    exact this ops hflat
  have mem : ∀ c : Circ A, c ∈ ops → c ≠ cid c.cdim → c ∈ ops.filter (fun x => !isCid x) := by
    intro c hc hi
    rw [List.mem_filter]
    refine ⟨hc, ?_⟩
    cases h : isCid c with
    | false => rfl
    | true => exact absurd (beq_cid h) hi
  have hma := mem a ha hai
  have hmb := mem b hb hbi
  change seriesCreate (opsAt strict f) f ops = _
  unfold seriesCreate
  rw [hassoc]
  unfold Engine.filterNeutral
  cases ops with
  | nil => cases ha
  | cons o os =>
    simp only
    generalize hF : (o :: os).filter (fun x => !isCid x) = F at hma hmb
    match F, hma, hmb with
    | [x], hma, hmb =>
      simp only [List.mem_singleton] at hma hmb
      subst hma hmb; exact absurd rfl hne
    | x :: y :: l, hma, hmb =>
      simp only
      rw [if_neg]
      intro hall
      rw [List.all_eq_true] at hall
      have h1 := hall a hma
      have h2 := hall b hmb
      simp only [beq_iff_eq] at h1 h2
      omega

/-- C18, second clause, fails for identity circuits: they are removed before the channel numbers are compared. -/
theorem C18_refuted_identity : (opsAt (A := A) false 3).series [.id1, .sym 0 3] = .ok (.sym 0 3) ∧
    (Circ.id1 : Circ A).cdim ≠ (Circ.sym 0 3 : Circ A).cdim := by
  constructor
  · rfl
  · intro h; cases h

/-! ### C17 -/

/-- without coupling operators, feedback leaves `H` alone -/
theorem feedback_noL {a b : SLH A} {o i : ℕ} (ha : SLH.Iso a) (ho : o < a.n) (hi : i < a.n) (hL : ∀ k, a.L k = 0)
    (h : SLH.feedback a o i = .ok b) : b.H = a.H ∧ (∀ k, b.L k = 0) ∧ b.n = a.n - 1 ∧ SLH.Iso b ∧
    ∀ k l, k < a.n - 1 → l < a.n - 1 → a.S (Aff.up o k) i = 0 → b.S k l = a.S (Aff.up o k) (Aff.up i l) := by
  obtain ⟨c, hc, hx⟩ := (SLH.C16_error_iff ha ho hi).1.mp ⟨_, h⟩
  obtain ⟨b', e, h1, h2, h3, h4⟩ := SLH.feedback_ok ha ho hi hc hx
  rw [h] at e; injection e with e; subst e
  have hbL : ∀ k, b.L k = 0 := by
    intro k
    rw [← SLH.toAff_L, h2]
    by_cases hk : k < a.n - 1
    · rw [Aff.fb_L (by simpa using hk), SLH.toAff_L, SLH.toAff_L, hL, hL]; simp
    · exact (Aff.fb o i _ (SLH.toAff a)).hL k (by simpa [Aff.fb] using hk)
  refine ⟨?_, hbL, h1, h3, ?_⟩
  · have hK := congrArg Aff.K h2
    rw [Aff.fb_K, SLH.toAff_K, SLH.toAff_K, SLH.toAff_L, hL] at hK
    simp only [hbL, hL, mul_zero, Finset.sum_const_zero, smul_zero, sub_zero, add_zero, neg_inj] at hK
    have := congrArg (fun z => (-Complex.I) • z) hK
    simpa [smul_smul, Complex.I_mul_I] using this
  · intro k l hk hl h0
    rw [← SLH.toAff_S, h2, Aff.fb_S (by simpa using hk) (by simpa using hl), SLH.toAff_S, SLH.toAff_S, SLH.toAff_S, h0]
    simp

/-- a cavity with one port and a Hamiltonian: `S = -1`, `L = 0`, `H = 1` -/
noncomputable def mirror : SLH ℂ := SLH.mk' 1 (fun _ _ => -1) (fun _ => 0) 1

theorem mirror_unitary : SLH.Unitary mirror := by
  constructor
  all_goals
    intro k l hk hl
    have hk : k < 1 := hk
    have hl : l < 1 := hl
    have e1 : k = 0 := by omega
    have e2 : l = 0 := by omega
    subst e1 e2
    simp [mirror, SLH.mk']

/-- routing `0 → 1 → 2 → 0` for all symbols with three channels, straight through otherwise -/
noncomputable def routing : Valuation ℂ where
  val _ n := if n = 3 then SLH.ofPerm [1, 2, 0] else SLH.passThrough n
  unitary _ n _ := by
    have hv : Valid [1, 2, 0] := (check_iff _).mp (by decide +kernel)
    split
    · exact ⟨SLH.Iso.ofPerm hv, SLH.CoIso.ofPerm hv⟩
    · exact SLH.passThrough_unitary n
  dim _ n _ := by
    split
    · rename_i h; rw [h]; rfl
    · rfl

/-- `((A + B).feedback(3, 3)).feedback(0, 1)` with a symbol `A` of three channels and an SLH triple `B` of one channel -/
noncomputable def badExpr : Expr ℂ := .feedback (.feedback (.concat (.sym 0 3) (.slh mirror)) 3 3) 0 1

/-- C17 fails when the only channel of an SLH triple is closed: the triple without channels is dropped from the concatenation,
together with its Hamiltonian. All steps are legal: the expression is well formed and all loops are well posed. -/
theorem C17_refuted_zero_channels : badExpr.WellFormed ∧ ∃ s c, badExpr.eval routing.val = .ok s ∧ simplify false 20 badExpr = .ok c ∧
    c.toSLH routing.val ≠ .ok s := by
  have hv : Valid [1, 2, 0] := (check_iff _).mp (by decide +kernel)
  refine ⟨⟨⟨⟨by show 0 < 3; omega, mirror_unitary, by show 0 < 1; omega⟩, by decide, by decide, by decide⟩, by decide, by decide, by decide⟩, ?_⟩
  -- the meaning of the expression
  set a : SLH ℂ := SLH.concat (SLH.ofPerm [1, 2, 0]) mirror with ha
  have hIa : SLH.Iso a := SLH.Iso.concat (SLH.Iso.ofPerm hv) mirror_unitary.1
  have han : a.n = 4 := rfl
  have haL : ∀ k, a.L k = 0 := by
    intro k; simp [ha, SLH.concat, SLH.mk', SLH.ofPerm, mirror]
  have haH : a.H = 1 := by simp [ha, SLH.concat, SLH.mk', SLH.ofPerm, mirror]
  have hS33 : a.S 3 3 = -1 := by simp [ha, SLH.concat, SLH.mk', SLH.ofPerm, mirror]
  obtain ⟨b, hb⟩ := (SLH.C16_error_iff (o := 3) (i := 3) hIa (by omega) (by omega)).1.mpr ⟨2, by norm_num, by rw [hS33]; norm_num⟩
  obtain ⟨hbH, hbL, hbn, hbI, hbS⟩ := feedback_noL hIa (by omega) (by omega) haL hb
  have hbn' : b.n = 3 := by rw [hbn, han]
  have hb01 : b.S 0 1 = 0 := by
    rw [hbS 0 1 (by omega) (by omega) (by simp [ha, SLH.concat, SLH.mk', SLH.ofPerm, mirror, Aff.up])]
    simp [ha, SLH.concat, SLH.mk', SLH.ofPerm, mirror, Aff.up]
  obtain ⟨s, hs⟩ := (SLH.C16_error_iff (o := 0) (i := 1) hbI (by omega) (by omega)).1.mpr ⟨1, by norm_num, by rw [hb01]; norm_num⟩
  obtain ⟨hsH, -⟩ := feedback_noL hbI (by omega) (by omega) hbL hs
  have heval : badExpr.eval routing.val = .ok s := by
    have h1 : (Expr.concat (.sym 0 3) (.slh mirror) : Expr ℂ).eval routing.val = .ok a := by
      simp only [Expr.eval, routing, if_true]; rfl
    have h2 : (Expr.feedback (.concat (.sym 0 3) (.slh mirror)) 3 3 : Expr ℂ).eval routing.val = .ok b := by
      rw [Expr.eval, h1]; exact hb
    unfold badExpr
    rw [Expr.eval, h2]; exact hs
  -- what the code returns
  obtain ⟨z, hz⟩ := (SLH.C16_error_iff (o := 0) (i := 0) mirror_unitary.1 (show 0 < 1 by omega) (show 0 < 1 by omega)).1.mpr
    ⟨2, by norm_num, by simp [mirror, SLH.mk']; norm_num⟩
  obtain ⟨-, -, hzn, -⟩ := feedback_noL mirror_unitary.1 (show 0 < 1 by omega) (show 0 < 1 by omega)
    (by intro k; simp [mirror, SLH.mk']) hz
  have hstep : simplify false 20 (.feedback (.concat (.sym 0 3) (.slh mirror)) 3 3 : Expr ℂ) = .ok (.concat [.sym 0 3, .slh z]) := by
    have : simplify false 20 (.feedback (.concat (.sym 0 3) (.slh mirror)) 3 3 : Expr ℂ) =
      (SLH.feedback mirror 0 0 >>= fun t => .ok (.slh t)) >>= fun l => (opsAt false 20).concat ([.sym 0 3] ++ [l]) := by kernel_rfl
    rw [this, hz]; kernel_rfl
  have hsimp : simplify false 20 badExpr = .ok (.fb (.sym 0 3) 0 1) := by
    unfold badExpr
    rw [simplify, hstep]
    obtain ⟨n, S, L, H, x1, x2⟩ := z
    have : n = 0 := hzn
    subst this
    kernel_rfl
  refine ⟨s, _, heval, hsimp, ?_⟩
  intro hc
  have h1 : SLH.feedback (SLH.ofPerm [1, 2, 0] : SLH ℂ) 0 1 = .ok s := by
    simp only [Circ.toSLH, routing, if_true] at hc
    exact hc
  obtain ⟨h2, -⟩ := feedback_noL (SLH.Iso.ofPerm hv) (show 0 < 3 by omega) (show 1 < 3 by omega) (by intro k; simp [SLH.ofPerm, SLH.mk']) h1
  rw [hsH, hbH, haH] at h2
  simp [SLH.ofPerm, SLH.mk'] at h2

/-! ### the hypotheses can be met -/

/-- a non-trivial rewriting: `((A ⊞ B) ≪ P).feedback`, for all assignments to the symbols -/
example : ∃ c : Circ ℂ, simplify false 30 (.feedback (.series (.concat (.sym 2 1) (.sym 3 2)) (.concat (.sym 0 2) (.sym 1 1))) 0 2) = .ok c ∧
    simplify true 30 (.feedback (.series (.concat (.sym 2 1) (.sym 3 2)) (.concat (.sym 0 2) (.sym 1 1))) 0 2) = .ok c ∧ c.cdim = 2 := by
  refine ⟨.series [.sym 3 2, .concat [.id1, .series [.sym 1 1, .sym 2 1]], .perm [1, 0], .sym 0 2], ?_, ?_, rfl⟩
  · kernel_rfl
  · kernel_rfl

end QNET.Circuit
