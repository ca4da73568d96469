import Verif.Circuit.TermStep4
import Verif.Circuit.Thm

/-!
# C78: simplification terminates for every expression without feedback
-/

namespace QNET.Circuit

open QNET.Perm QNET.CPerm CircAlg

variable {A : Type} [Ring A] [StarRing A] [Algebra ℂ A]

theorem con_all {l : List (Circ A)} (hne : l ≠ []) (h : ∀ c ∈ l, Gd c) : ∃ r, Con l r ∧ Gd r ∧ r.cdim = sumCdim l := by
  obtain ⟨r, h1, h2, h3, -⟩ := (all_conv (sumCdim l) (deepList l)).1 l hne h rfl le_rfl
  exact ⟨r, h1, h2, h3⟩

theorem ser_all {l : List (Circ A)} {n : ℕ} (hne : l ≠ []) (h : ∀ c ∈ l, Gd c ∧ c.cdim = n) : ∃ r, Ser l r ∧ Gd r ∧ r.cdim = n := by
  obtain ⟨r, h1, h2, h3, -⟩ := (all_conv n (deepList l)).2 l hne h le_rfl
  exact ⟨r, h1, h2, h3⟩

theorem inv_all {c : Circ A} (h : Gd c) : ∃ d, Inv c d ∧ Gd d ∧ d.cdim = c.cdim := by
  have hgood : ∀ {l vs : List (Circ A)}, List.Forall₂ (fun c d => Gd d ∧ d.cdim = c.cdim) l vs → (∀ d ∈ vs, Gd d) ∧ vs.map Circ.cdim = l.map Circ.cdim := by
    intro l vs h
    induction h with
    | nil => exact ⟨by simp, rfl⟩
    | cons h _ ih =>
      refine ⟨fun d hd => ?_, by rw [List.map_cons, List.map_cons, h.2, ih.2]⟩
      rcases List.mem_cons.mp hd with rfl | hd
      · exact h.1
      · exact ih.1 d hd
  induction h with
  | sym a n h => exact ⟨_, Inv.mk (Cv.const rfl), .inv a n h, rfl⟩
  | inv a n h => exact ⟨_, Inv.mk (Cv.const rfl), .sym a n h, rfl⟩
  | slh s h => exact ⟨_, Inv.mk (Cv.const rfl), .slh _ h, rfl⟩
  | id1 => exact ⟨_, Inv.mk (Cv.const rfl), .id1, rfl⟩
  | perm p hp =>
    obtain ⟨d, h1, h2, h3⟩ := zero_inverse (zero_perm (A := A) hp)
    exact ⟨d, h1, h2.gd, h3⟩
  | concat l hl hg hf hc ih =>
    obtain ⟨vs, e1, q⟩ := Cv.mapM (F := fun f (c : Circ A) => (opsAt true f).inverse c) l fun c hc => ih c hc
    obtain ⟨g, d⟩ := hgood q
    have hlen : vs.length = l.length := q.length_eq.symm
    obtain ⟨r, r1, r2, r3⟩ := con_all (l := vs) (by rintro rfl; simp only [List.length_nil] at hlen; omega) g
    refine ⟨r, Inv.mk ?_, r2, by rw [r3, sumCdim_eq, d, ← sumCdim_eq]; rfl⟩
    show Cv (fun f => l.mapM (opsAt true f).inverse >>= fun fs => (opsAt true f).concat fs) r
    exact Cv.bind e1 r1
  | series l n hl hg hn hc ih =>
    obtain ⟨vs, e1, q⟩ := Cv.mapM (F := fun f (c : Circ A) => (opsAt true f).inverse c) l.reverse fun c hc => ih c (List.mem_reverse.mp hc)
    obtain ⟨g, d⟩ := hgood q
    have hd : ∀ c ∈ vs, c.cdim = n := fun c hc => by
      have : c.cdim ∈ l.reverse.map Circ.cdim := by rw [← d]; exact List.mem_map_of_mem hc
      obtain ⟨b, hb, e⟩ := List.mem_map.mp this
      rw [← e, (hn b (List.mem_reverse.mp hb)).2.1]
    have hlen : vs.length = l.length := by rw [← q.length_eq, List.length_reverse]
    obtain ⟨r, r1, r2, r3⟩ := ser_all (l := vs) (n := n) (by rintro rfl; simp only [List.length_nil] at hlen; omega) (fun c hc => ⟨g c hc, hd c hc⟩)
    refine ⟨r, Inv.mk ?_, r2, by rw [r3, Gd.series_cdim hl fun c hc => (hn c hc).2.1]⟩
    show Cv (fun f => l.reverse.mapM (opsAt true f).inverse >>= fun fs => (opsAt true f).series fs) r
    exact Cv.bind e1 r1

/-- a simplified circuit or the circuit without channels -/
def GdZ (c : Circ A) : Prop := c = .zero ∨ Gd c

theorem GdZ.gd {c : Circ A} (h : GdZ c) (hp : 0 < c.cdim) : Gd c := by
  rcases h with rfl | h
  · simp [Circ.cdim] at hp
  · exact h

theorem concat_zero_left {y : Circ A} (h : Gd y) (R : Ops A) (f : ℕ) : concatCreate R f [.zero, y] = concatCreate R f [y] := by
  have hz := assoc_gd (l := [y]) (by simpa using h)
  have hF : (Engine.assoc flatConcat [y]).filter (fun x => !isZero x) = Engine.assoc flatConcat [y] :=
    List.filter_eq_self.mpr fun z hz' => by rw [(hz z hz').1.notZero]; rfl
  have ha : Engine.assoc flatConcat [.zero, y] = .zero :: Engine.assoc flatConcat [y] := rfl
  have hne : Engine.assoc flatConcat [y] ≠ [] := by
    have := assoc_len (l := [y]) (by simpa using h)
    rintro e
    rw [e] at this
    simp at this
  unfold concatCreate Engine.createAssoc Engine.filterNeutral
  rw [ha]
  generalize Engine.assoc flatConcat [y] = L at *
  match L, hne with
  | x :: L, _ =>
    dsimp only
    have h0 : isZero (.zero : Circ A) = true := rfl
    rw [List.filter_cons, h0]
    simp only [Bool.not_true, Bool.false_eq_true, if_false]
    rw [hF]
    match L with
    | [] => rfl
    | _ :: _ => rfl

theorem concat_zero_right {y : Circ A} (h : Gd y) (R : Ops A) (f : ℕ) : concatCreate R f [y, .zero] = concatCreate R f [y] := by
  have hz := assoc_gd (l := [y]) (by simpa using h)
  have hF : (Engine.assoc flatConcat [y]).filter (fun x => !isZero x) = Engine.assoc flatConcat [y] :=
    List.filter_eq_self.mpr fun z hz' => by rw [(hz z hz').1.notZero]; rfl
  have ha : Engine.assoc flatConcat [y, .zero] = Engine.assoc flatConcat [y] ++ [(.zero : Circ A)] := by simp [Engine.assoc, flatConcat]
  have hne : Engine.assoc flatConcat [y] ≠ [] := by
    have := assoc_len (l := [y]) (by simpa using h)
    rintro e
    rw [e] at this
    simp at this
  have h0 : ([.zero] : List (Circ A)).filter (fun x => !isZero x) = [] := rfl
  have hF2 : (Engine.assoc flatConcat [y] ++ [(.zero : Circ A)]).filter (fun x => !isZero x) = Engine.assoc flatConcat [y] := by rw [List.filter_append, hF, h0, List.append_nil]
  unfold concatCreate Engine.createAssoc Engine.filterNeutral
  rw [ha]
  generalize Engine.assoc flatConcat [y] = L at *
  match L, hne with
  | x :: L, _ =>
    rw [List.cons_append] at hF2 ⊢
    dsimp only
    rw [hF, hF2]

theorem con_zero {x y : Circ A} (hx : GdZ x) (hy : GdZ y) : ∃ r, Con [x, y] r ∧ GdZ r ∧ r.cdim = x.cdim + y.cdim := by
  rcases hx with rfl | hx
  · rcases hy with rfl | hy
    · exact ⟨.zero, Con.mk (f := 0) rfl, .inl rfl, rfl⟩
    · obtain ⟨r, ⟨f, h⟩, h1, h2⟩ := con_all (l := [y]) (by simp) (by simpa using hy)
      have h' := h (f + 1) (by omega)
      refine ⟨r, Con.mk (f := f) ?_, .inr h1, ?_⟩
      · rw [concat_zero_left hy]
        exact h'
      · simpa [sumCdim, Circ.cdim] using h2
  · rcases hy with rfl | hy
    · obtain ⟨r, ⟨f, h⟩, h1, h2⟩ := con_all (l := [x]) (by simp) (by simpa using hx)
      have h' := h (f + 1) (by omega)
      refine ⟨r, Con.mk (f := f) ?_, .inr h1, ?_⟩
      · rw [concat_zero_right hx]
        exact h'
      · simpa [sumCdim, Circ.cdim] using h2
    · obtain ⟨r, h, h1, h2⟩ := con_all (l := [x, y]) (by simp) (mem2 hx hy)
      exact ⟨r, h, .inr h1, by simpa [sumCdim] using h2⟩

/-- no feedback in the expression -/
def Expr.NoFeedback : Expr A → Prop
  | .feedback _ _ _ => False
  | .series a b => a.NoFeedback ∧ b.NoFeedback
  | .concat a b => a.NoFeedback ∧ b.NoFeedback
  | .inverse a => a.NoFeedback
  | _ => True

theorem simplify_all : ∀ e : Expr A, e.WellFormed → e.NoFeedback → ∃ c, Cv (fun f => simplify true f e) c ∧ GdZ c ∧ c.cdim = e.channels
  | .sym a n, hw, _ => ⟨_, Cv.const rfl, .inr (.sym a n hw), rfl⟩
  | .slh s, hw, _ => ⟨_, Cv.const rfl, .inr (.slh s hw.2), rfl⟩
  | .cperm p, hw, _ => by
    have hv : Valid p := (valid_iff p).mpr hw
    have hcr := create_ok hv
    generalize (if p = List.range p.length then PC.cid p.length else .perm p) = pc at hcr
    refine ⟨ofPC pc, ?_, ?_, ?_⟩
    · show Cv (fun f => create p >>= fun c => _) _
      refine Cv.bind (Cv.const hcr) ?_
      exact Cv.const rfl
    · rcases Nat.eq_zero_or_pos pc.cdim with h | h
      · cases pc with
        | cid n =>
          replace h : n = 0 := h
          subst h
          exact .inl rfl
        | perm q =>
          have := perm_length_pos (p := q) ⟨_, hcr⟩
          replace h : q.length = 0 := h
          omega
      · exact .inr (ofPC_gd ⟨_, hcr⟩ h)
    · rw [ofPC_cdim, (create_tuple hcr).2.2]
      rfl
  | .cid n, _, _ => by
    refine ⟨_, Cv.const rfl, ?_, cid_cdim n⟩
    rcases Nat.eq_zero_or_pos n with rfl | h
    · exact .inl rfl
    · exact .inr (cid_gd h)
  | .series a b, hw, hp => by
    obtain ⟨x, e1, g1, d1⟩ := simplify_all a hw.1 hp.1
    obtain ⟨y, e2, g2, d2⟩ := simplify_all b hw.2.1 hp.2
    have hxy : x.cdim = y.cdim := by rw [d1, d2, hw.2.2]
    have key : ∃ c, Ser [x, y] c ∧ GdZ c ∧ c.cdim = x.cdim := by
      rcases g1 with rfl | g1
      · rcases g2 with rfl | g2
        · exact ⟨.zero, Ser.mk (f := 0) rfl, .inl rfl, rfl⟩
        · have := g2.pos
          rw [← hxy] at this
          simp [Circ.cdim] at this
      · have g2' := g2.gd (by rw [← hxy]; exact g1.pos)
        obtain ⟨c, e, g, d⟩ := ser_all (l := [x, y]) (n := x.cdim) (by simp) (mem2 ⟨g1, rfl⟩ ⟨g2', hxy.symm⟩)
        exact ⟨c, e, .inr g, d⟩
    obtain ⟨c, e3, g3, d3⟩ := key
    refine ⟨c, ?_, g3, by rw [d3, d1]; rfl⟩
    show Cv (fun f => simplify true f a >>= fun x => simplify true f b >>= fun y => _) _
    refine Cv.bind e1 ?_
    refine Cv.bind e2 ?_
    exact e3
  | .concat a b, hw, hp => by
    obtain ⟨x, e1, g1, d1⟩ := simplify_all a hw.1 hp.1
    obtain ⟨y, e2, g2, d2⟩ := simplify_all b hw.2 hp.2
    obtain ⟨c, e3, g3, d3⟩ := con_zero g1 g2
    refine ⟨c, ?_, g3, by rw [d3, d1, d2]; rfl⟩
    show Cv (fun f => simplify true f a >>= fun x => simplify true f b >>= fun y => _) _
    refine Cv.bind e1 ?_
    refine Cv.bind e2 ?_
    exact e3
  | .feedback _ _ _, _, hp => hp.elim
  | .inverse a, hw, hp => by
    obtain ⟨x, e1, g1, d1⟩ := simplify_all a hw.1 hp
    obtain ⟨c, e2, g2, d2⟩ := inv_all (g1.gd (by rw [d1]; exact hw.2))
    refine ⟨c, ?_, .inr g2, by rw [d2, d1]; rfl⟩
    show Cv (fun f => simplify true f a >>= fun x => _) _
    refine Cv.bind e1 ?_
    exact e2

/-- C78: a meaningful expression made of components, SLH objects, permutations, identities, series products, concatenations and inverses is simplified without an exception in finitely many steps: from
some recursion limit on, the result is always the same circuit, with the expected number of channels. Missing: feedback (for which the claim is false, see `C78_refuted_feedback`). -/
theorem C78_terminates_partial (e : Expr A) (hw : e.WellFormed) (hp : e.NoFeedback) : ∃ f₀ c, c.cdim = e.channels ∧ ∀ f, f₀ ≤ f → simplify false f e = .ok c := by
  obtain ⟨c, ⟨f, h⟩, -, d⟩ := simplify_all e hw hp
  exact ⟨f, c, d, fun f' hf => simplify_mono (b := true) (b' := false) (by simp) hf e c (h f le_rfl)⟩

/-- a non-trivial case: `(A + B) << (A.series_inverse() + C)` is reduced to `cid(2) + (B << C)` -/
example : (Expr.series (.concat (.sym 0 2) (.sym 1 1)) (.concat (.inverse (.sym 0 2)) (.sym 2 1)) : Expr A).WellFormed ∧
    (Expr.series (.concat (.sym 0 2) (.sym 1 1)) (.concat (.inverse (.sym 0 2)) (.sym 2 1)) : Expr A).NoFeedback ∧
    simplify (A := A) false 12 (.series (.concat (.sym 0 2) (.sym 1 1)) (.concat (.inverse (.sym 0 2)) (.sym 2 1))) =
      .ok (.concat [.id1, .id1, .series [.sym 1 1, .sym 2 1]]) := by
  refine ⟨⟨⟨by show 0 < 2; omega, by show 0 < 1; omega⟩, ⟨⟨by show 0 < 2; omega, by show 0 < 2; omega⟩, by show 0 < 1; omega⟩, rfl⟩, ⟨⟨trivial, trivial⟩, trivial, trivial⟩, ?_⟩
  kernel_rfl

/-- a non-trivial case: in `P_sigma(1, 2, 0) << (A + B)` with a component `A` with two channels, the permutation moves to the right of the components: `(B + A) << P_sigma(1, 2, 0)` -/
example : (Expr.series (.cperm [1, 2, 0]) (.concat (.sym 0 2) (.sym 1 1)) : Expr A).WellFormed ∧ (Expr.series (.cperm [1, 2, 0]) (.concat (.sym 0 2) (.sym 1 1)) : Expr A).NoFeedback ∧
    simplify (A := A) false 12 (.series (.cperm [1, 2, 0]) (.concat (.sym 0 2) (.sym 1 1))) = .ok (.series [.concat [.sym 1 1, .sym 0 2], .perm [1, 2, 0]]) := by
  refine ⟨⟨(valid_iff _).mp (by decide +kernel : List.Perm [1, 2, 0] (List.range 3)), ⟨by show 0 < 2; omega, by show 0 < 1; omega⟩, rfl⟩, ⟨trivial, trivial, trivial⟩, ?_⟩
  kernel_rfl

theorem eval_total (ρ : ℕ → ℕ → SLH A) : ∀ e : Expr A, e.NoFeedback → ∃ s, e.eval ρ = .ok s
  | .sym a n, _ => ⟨_, rfl⟩
  | .slh s, _ => ⟨_, rfl⟩
  | .cperm p, _ => ⟨_, rfl⟩
  | .cid n, _ => ⟨_, rfl⟩
  | .series a b, h => by
    obtain ⟨x, hx⟩ := eval_total ρ a h.1
    obtain ⟨y, hy⟩ := eval_total ρ b h.2
    exact ⟨SLH.series x y, by rw [Expr.eval, hx, hy]; rfl⟩
  | .concat a b, h => by
    obtain ⟨x, hx⟩ := eval_total ρ a h.1
    obtain ⟨y, hy⟩ := eval_total ρ b h.2
    exact ⟨SLH.concat x y, by rw [Expr.eval, hx, hy]; rfl⟩
  | .feedback _ _ _, h => h.elim
  | .inverse a, h => by
    obtain ⟨x, hx⟩ := eval_total ρ a h
    exact ⟨SLH.inverse x, by rw [Expr.eval, hx]; rfl⟩

/-- C89: building a circuit without feedback always succeeds, and the circuit that is built has the SLH triple that the expression stands for: there is one circuit `c` which every sufficiently large
recursion limit yields, with the expected number of channels, and for all assignments of unitary triples to the components `c.toSLH()` succeeds and is the triple of the expression as written. -/
theorem C89_total_correctness [StarModule ℂ A] (e : Expr A) (hw : e.WellFormed) (hp : e.NoFeedback) :
    ∃ f₀ c, c.cdim = e.channels ∧ (∀ f, f₀ ≤ f → simplify false f e = .ok c) ∧ ∀ ρ : Valuation A, ∃ s, e.eval ρ.val = .ok s ∧ c.toSLH ρ.val = .ok s := by
  obtain ⟨c, ⟨f, h⟩, -, d⟩ := simplify_all e hw hp
  refine ⟨f, c, d, fun f' hf => simplify_mono (b := true) (b' := false) (by simp) hf e c (h f le_rfl), fun ρ => ?_⟩
  obtain ⟨s, hs⟩ := eval_total ρ.val e hp
  exact ⟨s, hs, (C17_slh_partial ρ hw hs (h f le_rfl)).2⟩

/-- the hypotheses are met by an expression with a permutation, an SLH object, components and an inverse -/
example [StarModule ℂ A] : (Expr.series (.cperm [1, 2, 0]) (.concat (.inverse (.sym 0 2)) (.slh (SLH.passThrough 1))) : Expr A).WellFormed ∧
    (Expr.series (.cperm [1, 2, 0]) (.concat (.inverse (.sym 0 2)) (.slh (SLH.passThrough 1))) : Expr A).NoFeedback :=
  ⟨⟨(valid_iff _).mp (by decide +kernel : List.Perm [1, 2, 0] (List.range 3)), ⟨⟨by show 0 < 2; omega, by show 0 < 2; omega⟩, SLH.passThrough_unitary 1, by show 0 < 1; omega⟩, rfl⟩,
    ⟨trivial, trivial, trivial⟩⟩

end QNET.Circuit
