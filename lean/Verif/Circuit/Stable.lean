import Verif.Circuit.TermAll

/-!
# C90, C91: building a circuit again from its operands; substitution in circuits
-/

namespace QNET.Circuit

open QNET.Perm QNET.CPerm CircAlg

section
variable {α : Type}

theorem combine_none {rule : α → α → Res (Option α)} {neutral : α → Bool} {flat : α → Option (List α)} {f : ℕ} {a b : List α} {x y : α} (hx : a.getLast? = some x)
    (h : rule x y = .ok none) : Engine.combine rule neutral flat (f + 1) a (y :: b) = .ok (a ++ y :: b) := by
  unfold Engine.combine
  rw [hx]
  dsimp only
  rw [h]

theorem chain_reduce {rule : ℕ → α → α → Res (Option α)} {neutral : α → Bool} {flat : α → Option (List α)} (hm : ∀ f f', f ≤ f' → ∀ x y, Le (rule f x y) (rule f' x y)) :
    ∀ (k : ℕ) (l : List α), l.length ≤ k → l.IsChain (NoRule rule) → ∃ f, Engine.reduce (rule f) neutral flat f l = .ok l
  | k, l, hk, hc => by
    by_cases hl : l.length ≤ 1
    · refine ⟨1, ?_⟩
      rw [Engine.reduce, if_pos hl]
    · match k with
      | 0 => omega
      | k + 1 =>
        have h1 : (l.take (l.length / 2)).length ≤ k := by rw [List.length_take]; omega
        have h2 : (l.drop (l.length / 2)).length ≤ k := by rw [List.length_drop]; omega
        have hsplit := List.take_append_drop (l.length / 2) l
        have hc' := hc
        rw [← hsplit, List.isChain_append] at hc'
        obtain ⟨f1, e1⟩ := chain_reduce (neutral := neutral) (flat := flat) hm k _ h1 hc'.1
        obtain ⟨f2, e2⟩ := chain_reduce (neutral := neutral) (flat := flat) hm k _ h2 hc'.2.1
        have hne1 : l.take (l.length / 2) ≠ [] := fun h => by
          have := congrArg List.length h
          simp only [List.length_take, List.length_nil] at this
          omega
        have hne2 : l.drop (l.length / 2) ≠ [] := fun h => by
          have := congrArg List.length h
          simp only [List.length_drop, List.length_nil] at this
          omega
        obtain ⟨x, hx⟩ : ∃ x, (l.take (l.length / 2)).getLast? = some x := ⟨_, List.getLast?_eq_some_getLast hne1⟩
        obtain ⟨y, b, hb⟩ := List.exists_cons_of_ne_nil hne2
        obtain ⟨f3, e3⟩ := hc'.2.2 x hx y (by rw [hb]; rfl)
        refine ⟨max f1 (max f2 f3) + 2, ?_⟩
        rw [Engine.reduce, if_neg hl]
        rw [reduce_mono (hm f1 (max f1 (max f2 f3) + 2) (by omega)) neutral flat f1 (max f1 (max f2 f3) + 1) (by omega) _ _ e1]
        dsimp only
        rw [reduce_mono (hm f2 (max f1 (max f2 f3) + 2) (by omega)) neutral flat f2 (max f1 (max f2 f3) + 1) (by omega) _ _ e2]
        dsimp only
        rw [hb, combine_none hx (hm f3 (max f1 (max f2 f3) + 2) (by omega) x y _ e3), ← hb, hsplit]

end

variable {A : Type} [Ring A] [StarRing A] [Algebra ℂ A]

theorem assoc_flat {flat : Circ A → Option (List (Circ A))} {l : List (Circ A)} (h : ∀ c ∈ l, flat c = none) : Engine.assoc flat l = l := by
  induction l with
  | nil => rfl
  | cons c l ih =>
    rw [Engine.assoc, List.flatMap_cons, h c (by simp)]
    rw [Engine.assoc] at ih
    rw [ih fun d hd => h d (by simp [hd])]
    rfl

theorem con_again {l : List (Circ A)} (h : Gd (.concat l)) : Con l (.concat l) := by
  cases h with
  | concat _ hl hg hf hc =>
    obtain ⟨f, e⟩ := chain_reduce (neutral := isZero) (flat := flatConcat) CR_mono _ l le_rfl hc
    have hne : l ≠ [] := by rintro rfl; simp at hl
    obtain ⟨r, h1, h2, h3, h4, h5⟩ := concat_finish (m := l) hne hg (by rw [assoc_flat hf]; exact e) (fun z hz => ⟨hg z hz, hf z hz⟩) hc hne
    rcases h5 with h5 | ⟨rfl, -⟩
    · rw [h5] at hl
      simp at hl
    · exact h1

theorem ser_again {l : List (Circ A)} (h : Gd (.series l)) (hi : ∀ c ∈ l, isCid c = false) : Ser l (.series l) := by
  cases h with
  | series _ n hl hg hf hc =>
    obtain ⟨f, e⟩ := chain_reduce (neutral := isId1) (flat := flatSeries) SR_mono _ l le_rfl hc
    have hne : l ≠ [] := by rintro rfl; simp at hl
    have ho : opsOf l = l := by
      rw [opsOf, assoc_flat fun c hc => (hf c hc).1]
      exact List.filter_eq_self.mpr fun c hc => by rw [hi c hc]; rfl
    obtain ⟨r, h1, h2, h3, h4, h5⟩ := series_finish (m := l) (n := n) (fun c hc => ⟨hg c hc, (hf c hc).2.1⟩) (by rw [ho]; exact hl) (by rw [ho]; exact e)
      (fun z hz => ⟨hg z hz, (hf z hz).1, (hf z hz).2.1, (hf z hz).2.2⟩) hc (fun h => absurd h hne)
    rcases h5 with ⟨h5, -⟩ | h5 | ⟨rfl, -⟩
    · exact absurd h5 hne
    · rw [h5] at hl
      simp at hl
    · exact h1

/-! ### `Expression.substitute` -/

mutual
/-- `Expression.substitute` for circuits, abstract_algebra.py lines 387-419 (with `substitute`, lines 672-691): an expression that is a key of the dictionary is replaced; otherwise the arguments are
substituted and the object is made again with the `create` method of its class. The dictionary is a function, `none` standing for a missing key. Not modelled: dictionaries with keys that are not
circuits (substitution in the matrices and operators of an `SLH` object, or in the arguments of a component). The singletons `CIdentity` and `CircuitZero` are returned as they are, as are objects
with no circuits as arguments. -/
def Circ.substitute (R : Ops A) (v : Circ A → Option (Circ A)) : Circ A → Res (Circ A)
  | .sym a n => .ok ((v (.sym a n)).getD (.sym a n))
  | .slh s => .ok ((v (.slh s)).getD (.slh s))
  | .perm p => match v (.perm p) with
    | some d => .ok d
    | none => do
      let c ← create p
      .ok (ofPC c)
  | .id1 => .ok ((v .id1).getD .id1)
  | .zero => .ok ((v .zero).getD .zero)
  | .series ops => match v (.series ops) with
    | some d => .ok d
    | none => do
      let l ← substituteList R v ops
      R.series l
  | .concat ops => match v (.concat ops) with
    | some d => .ok d
    | none => do
      let l ← substituteList R v ops
      R.concat l
  | .fb c o i => match v (.fb c o i) with
    | some d => .ok d
    | none => do
      let x ← c.substitute R v
      R.feedback x o i
  | .inv c => match v (.inv c) with
    | some d => .ok d
    | none => do
      let x ← c.substitute R v
      R.inverse x
/-- the list of the substituted arguments, line 413 -/
def substituteList (R : Ops A) (v : Circ A → Option (Circ A)) : List (Circ A) → Res (List (Circ A))
  | [] => .ok []
  | c :: cs => do
    let d ← c.substitute R v
    let ds ← substituteList R v cs
    .ok (d :: ds)
end

theorem substituteList_cv {v : Circ A → Option (Circ A)} {Q : Circ A → Circ A → Prop} : ∀ l : List (Circ A),
    (∀ x ∈ l, ∃ d, Cv (fun f => x.substitute (opsAt true f) v) d ∧ Q x d) → ∃ ds, Cv (fun f => substituteList (opsAt true f) v l) ds ∧ List.Forall₂ Q l ds
  | [], _ => ⟨[], Cv.const rfl, .nil⟩
  | x :: l, h => by
    obtain ⟨d, e1, q1⟩ := h x (by simp)
    obtain ⟨ds, e2, q2⟩ := substituteList_cv l fun y hy => h y (by simp [hy])
    refine ⟨d :: ds, ?_, .cons q1 q2⟩
    show Cv (fun f => x.substitute (opsAt true f) v >>= fun d => substituteList (opsAt true f) v l >>= fun ds => .ok (d :: ds)) _
    refine Cv.bind e1 ?_
    refine Cv.bind e2 ?_
    exact Cv.const rfl

theorem substitute_mono {R R' : Ops A} (h : LeOps R R') (v : Circ A → Option (Circ A)) : (∀ c : Circ A, Le (c.substitute R v) (c.substitute R' v)) ∧
    ∀ l : List (Circ A), Le (substituteList R v l) (substituteList R' v l) := by
  have key : ∀ c : Circ A, Le (c.substitute R v) (c.substitute R' v) := by
    intro c
    induction c using Circ.rec (motive_2 := fun l => Le (substituteList R v l) (substituteList R' v l)) with
    | sym a n => exact Le.refl _
    | slh s => exact Le.refl _
    | perm p => exact Le.refl _
    | id1 => exact Le.refl _
    | zero => exact Le.refl _
    | series ops ih =>
      unfold Circ.substitute
      split
      · exact Le.refl _
      · exact ih.bind fun l => h.series l
    | concat ops ih =>
      unfold Circ.substitute
      split
      · exact Le.refl _
      · exact ih.bind fun l => h.concat l
    | fb c o i ih =>
      unfold Circ.substitute
      split
      · exact Le.refl _
      · exact ih.bind fun l => h.feedback l o i
    | inv c ih =>
      unfold Circ.substitute
      split
      · exact Le.refl _
      · exact ih.bind fun l => h.inverse l
    | nil => exact Le.refl _
    | cons c l ih1 ih2 => exact ih1.bind fun d => ih2.bind fun ds => Le.refl _
  refine ⟨key, fun l => ?_⟩
  induction l with
  | nil => exact Le.refl _
  | cons c l ih => exact (key c).bind fun d => ih.bind fun ds => Le.refl _

/-! ### C90 -/

mutual
/-- no series product in the circuit has an identity as an operand -/
def Circ.NoIdFactor : Circ A → Prop
  | .series ops => (∀ n, cid n ∉ ops) ∧ noIdFactors ops
  | .concat ops => noIdFactors ops
  | .fb c _ _ => c.NoIdFactor
  | .inv c => c.NoIdFactor
  | _ => True
/-- the same for every operand -/
def noIdFactors : List (Circ A) → Prop
  | [] => True
  | c :: cs => c.NoIdFactor ∧ noIdFactors cs
end

theorem noIdFactors_mem {l : List (Circ A)} (h : noIdFactors l) : ∀ c ∈ l, c.NoIdFactor := by
  induction l with
  | nil => simp
  | cons c l ih =>
    intro d hd
    rcases List.mem_cons.mp hd with rfl | hd
    · exact h.1
    · exact ih h.2 d hd

theorem forall2_eq {α : Type} {l m : List α} (h : List.Forall₂ (fun x y => y = x) l m) : m = l := by
  induction h with
  | nil => rfl
  | cons h _ ih => rw [h, ih]

theorem substitute_none {c : Circ A} (h : Gd c) (hn : c.NoIdFactor) : Cv (fun f => c.substitute (opsAt true f) fun _ => none) c := by
  induction h with
  | sym a n h => exact Cv.const rfl
  | inv a n h =>
    show Cv (fun f => Circ.substitute (opsAt true f) (fun _ => none) (.sym a n) >>= fun x => (opsAt true f).inverse x) _
    refine Cv.bind (v := .sym a n) (Cv.const rfl) ?_
    exact Inv.mk (Cv.const rfl)
  | slh s h => exact Cv.const rfl
  | id1 => exact Cv.const rfl
  | perm p hp =>
    refine Cv.const ?_
    show (create p >>= fun c => .ok (ofPC c)) = Except.ok (Circ.perm p)
    obtain ⟨h1, h2⟩ := reachable_perm.mp hp
    rw [create_ok h1, if_neg h2]
    rfl
  | concat l hl hg hf hc ih =>
    obtain ⟨ds, e, q⟩ := substituteList_cv (v := fun _ => none) (Q := fun x y => y = x) l fun x hx => ⟨x, ih x hx (noIdFactors_mem hn x hx), rfl⟩
    rw [forall2_eq q] at e
    show Cv (fun f => substituteList (opsAt true f) (fun _ => none) l >>= fun l => (opsAt true f).concat l) _
    refine Cv.bind e ?_
    exact con_again (.concat l hl hg hf hc)
  | series l n hl hg hf hc ih =>
    obtain ⟨ds, e, q⟩ := substituteList_cv (v := fun _ => none) (Q := fun x y => y = x) l fun x hx => ⟨x, ih x hx (noIdFactors_mem hn.2 x hx), rfl⟩
    rw [forall2_eq q] at e
    show Cv (fun f => substituteList (opsAt true f) (fun _ => none) l >>= fun l => (opsAt true f).series l) _
    refine Cv.bind e ?_
    refine ser_again (.series l n hl hg hf hc) fun c hc => ?_
    cases h : isCid c with
    | false => rfl
    | true =>
      have := hn.1 c.cdim
      rw [← isCid_iff.mp h] at this
      exact absurd hc this

theorem simplify_unique {e : Expr A} {c d : Circ A} {f : ℕ} (h : simplify false f e = .ok c) (h' : Cv (fun f => simplify true f e) d) : c = d := by
  obtain ⟨f0, h0⟩ := h'
  have h1 := simplify_mono (b := false) (b' := false) (by simp) (le_max_left f f0) e c h
  have h2 := simplify_mono (b := true) (b' := false) (by simp) (le_refl (max f f0)) e d (h0 _ (le_max_right f f0))
  rw [h1] at h2
  injection h2

/-- C90: a circuit built from a feedback-free expression is a fixed point of being built: substituting nothing, which makes every subexpression again from its operands (as do `simplify` without
rules and evaluating the output of `srepr`), gives the same circuit. Missing: circuits in which a series product has an identity as an operand, for which the claim is false, see `C90_refuted_series`,
and feedback. -/
theorem C90_fixed_point_partial {e : Expr A} {c : Circ A} {f : ℕ} (hw : e.WellFormed) (hp : e.NoFeedback) (hc : simplify false f e = .ok c) (hn : c.NoIdFactor) :
    ∃ f₀, ∀ f, f₀ ≤ f → c.substitute (opsAt false f) (fun _ => none) = .ok c := by
  obtain ⟨d, h1, h2, -⟩ := simplify_all e hw hp
  obtain rfl := simplify_unique hc h1
  rcases h2 with rfl | h2
  · exact ⟨0, fun _ _ => rfl⟩
  · obtain ⟨f0, h0⟩ := substitute_none h2 hn
    exact ⟨f0, fun f hf => (substitute_mono (opsAt_mono (b := true) (b' := false) (by simp) (le_refl f)) _).1 c c (h0 f hf)⟩

/-- hypotheses of `C90_fixed_point_partial` met: `P_sigma(1, 2, 0) << (A + B)` -/
example : ∃ c : Circ A, simplify false 12 (.series (.cperm [1, 2, 0]) (.concat (.sym 0 2) (.sym 1 1))) = .ok c ∧ c.NoIdFactor ∧ c = .series [.concat [.sym 1 1, .sym 0 2], .perm [1, 2, 0]] := by
  refine ⟨.series [.concat [.sym 1 1, .sym 0 2], .perm [1, 2, 0]], ?_, ⟨fun n h => ?_, ⟨trivial, trivial, trivial⟩, trivial, trivial⟩, rfl⟩
  · kernel_rfl
  · match n with
    | 0 => simp [cid] at h
    | 1 => simp [cid] at h
    | n + 2 => simp [cid, List.replicate_succ] at h

/-- C90 is false in general: for components `A`, `B` with two channels, `A << B << B.series_inverse()` is the product of `A` and the identity with two channels, which is different from `A`; made
again from its operands it becomes `A`. -/
theorem C90_refuted_series : ∃ (e : Expr A) (c d : Circ A), e.WellFormed ∧ e.NoFeedback ∧ (∃ f₀, ∀ f, f₀ ≤ f → simplify false f e = .ok c) ∧
    (∃ f₀, ∀ f, f₀ ≤ f → c.substitute (opsAt false f) (fun _ => none) = .ok d) ∧ c = .series [.sym 0 2, cid 2] ∧ d = .sym 0 2 := by
  refine ⟨.series (.series (.sym 0 2) (.sym 1 2)) (.inverse (.sym 1 2)), _, _, ?_, ⟨⟨trivial, trivial⟩, trivial⟩, ⟨12, fun f hf => ?_⟩, ⟨12, fun f hf => ?_⟩, rfl, rfl⟩
  · exact ⟨⟨by show 0 < 2; omega, by show 0 < 2; omega, rfl⟩, ⟨by show 0 < 2; omega, by show 0 < 2; omega⟩, rfl⟩
  · refine simplify_mono (b := false) (by simp) hf _ _ ?_
    kernel_rfl
  · refine (substitute_mono (opsAt_mono (b := false) (by simp) hf) _).1 _ _ ?_
    kernel_rfl

/-! ### C91 -/

namespace CircAlg

/-- the same interpretation with other values of the components -/
abbrev withSym (M : CircAlg A) (w : ℕ → ℕ → M.T) (hw : ∀ s n, M.dim (w s n) = n) : CircAlg A := { M with symv := w, dim_sym := hw }

theorem substitute_sound {M : CircAlg A} {w : ℕ → ℕ → M.T} {hw : ∀ s n, M.dim (w s n) = n} {R : Ops A} (hs : Sound M R) {v : Circ A → Option (Circ A)}
    (hv : ∀ c d, v c = some d → ∀ t : M.T, (M.withSym w hw).V c t → M.V d t) (hv' : ∀ a n, v (.sym a n) = none → 0 < n → w a n = M.symv a n) :
    ∀ (c : Circ A) (t : M.T) (d : Circ A), (M.withSym w hw).V c t → c.substitute R v = .ok d → M.V d t := by
  intro c
  induction c using Circ.rec (motive_2 := fun l => ∀ (ts : List M.T) (ds : List (Circ A)), List.Forall₂ (M.withSym w hw).V l ts → substituteList R v l = .ok ds →
    List.Forall₂ M.V ds ts) with
  | sym a n =>
    intro t d h e
    cases h0 : v (.sym a n) with
    | some x =>
      rw [Circ.substitute, h0] at e
      injection e with e; subst e
      exact hv _ _ h0 t h
    | none =>
      rw [Circ.substitute, h0] at e
      injection e with e; subst e
      obtain ⟨h1, h2⟩ := V_sym.mp h
      exact V_sym.mpr ⟨h1, h2.trans (hv' a n h0 h1)⟩
  | slh s =>
    intro t d h e
    cases h0 : v (.slh s) with
    | some x =>
      rw [Circ.substitute, h0] at e
      injection e with e; subst e
      exact hv _ _ h0 t h
    | none =>
      rw [Circ.substitute, h0] at e
      injection e with e; subst e
      exact h
  | perm p =>
    intro t d h e
    cases h0 : v (.perm p) with
    | some x =>
      rw [Circ.substitute, h0] at e
      injection e with e; subst e
      exact hv _ _ h0 t h
    | none =>
      rw [Circ.substitute, h0] at e
      obtain ⟨h1, h2⟩ := V_perm.mp h
      have h3 := reachable_perm.mp h1
      dsimp only at e
      rw [create_ok h3.1, if_neg h3.2] at e
      injection e with e; subst e
      exact V_perm.mpr ⟨h1, h2⟩
  | id1 =>
    intro t d h e
    cases h0 : v .id1 with
    | some x =>
      rw [Circ.substitute, h0] at e
      injection e with e; subst e
      exact hv _ _ h0 t h
    | none =>
      rw [Circ.substitute, h0] at e
      injection e with e; subst e
      exact h
  | zero =>
    intro t d h e
    cases h0 : v .zero with
    | some x =>
      rw [Circ.substitute, h0] at e
      injection e with e; subst e
      exact hv _ _ h0 t h
    | none =>
      rw [Circ.substitute, h0] at e
      injection e with e; subst e
      exact h
  | series ops ih =>
    intro t d h e
    cases h0 : v (.series ops) with
    | some x =>
      rw [Circ.substitute, h0] at e
      injection e with e; subst e
      exact hv _ _ h0 t h
    | none =>
      rw [Circ.substitute, h0] at e
      dsimp only at e
      rw [bind_ok] at e
      obtain ⟨ds, e1, e2⟩ := e
      obtain ⟨k1, k2, ms, k3, k4⟩ := V_series.mp h
      have := ih _ ds (forall₂_sub k3) e1
      refine hs.series (n := M.dim t) (m := ⟨t, rfl⟩) ?_ ⟨ms, forall₂_lift this, k4⟩ e2
      rintro rfl
      have h3 := this.length_eq
      have h4 := k3.length_eq
      simp only [List.length_nil, List.length_map] at h3
      rw [← h3] at h4
      exact k1 (List.length_eq_zero_iff.mp h4)
  | concat ops ih =>
    intro t d h e
    cases h0 : v (.concat ops) with
    | some x =>
      rw [Circ.substitute, h0] at e
      injection e with e; subst e
      exact hv _ _ h0 t h
    | none =>
      rw [Circ.substitute, h0] at e
      dsimp only at e
      rw [bind_ok] at e
      obtain ⟨ds, e1, e2⟩ := e
      obtain ⟨k1, ms, k3, k4⟩ := V_concat.mp h
      obtain ⟨k5, k6⟩ := forall₂_p.mp k3
      exact hs.concat ⟨ms, ih _ ds k5 e1, k4⟩ e2
  | fb c o i ih =>
    intro t d h e
    cases h0 : v (.fb c o i) with
    | some x =>
      rw [Circ.substitute, h0] at e
      injection e with e; subst e
      exact hv _ _ h0 t h
    | none =>
      rw [Circ.substitute, h0] at e
      dsimp only at e
      rw [bind_ok] at e
      obtain ⟨x, e1, e2⟩ := e
      obtain ⟨u, k1, k2⟩ := V_fb.mp h
      exact hs.feedback (ih _ _ k1 e1) k2 e2
  | inv c ih =>
    intro t d h e
    cases h0 : v (.inv c) with
    | some x =>
      rw [Circ.substitute, h0] at e
      injection e with e; subst e
      exact hv _ _ h0 t h
    | none =>
      rw [Circ.substitute, h0] at e
      dsimp only at e
      rw [bind_ok] at e
      obtain ⟨x, e1, e2⟩ := e
      obtain ⟨a, n, rfl, h1, rfl⟩ := V_inv.mp h
      exact hs.inverse (ih _ _ (V_sym.mpr ⟨h1, rfl⟩) e1) (by rw [show M.dim _ = n from hw a n]; exact h1) e2
  | nil =>
    rename_i ts ds h e
    cases h
    injection e with e
    subst e
    exact .nil
  | cons c l ih1 ih2 =>
    rename_i ts ds h e
    cases h with
    | cons h1 h2 =>
      rw [substituteList, bind_ok] at e
      obtain ⟨x, e1, e⟩ := e
      rw [bind_ok] at e
      obtain ⟨xs, e2, e⟩ := e
      injection e with e
      subst e
      exact .cons (ih1 _ _ h1 e1) (ih2 _ _ h2 e2)

end CircAlg

/-- the user's expression with components replaced by other expressions: the literal substitution -/
def Expr.subst (σ : ℕ → ℕ → Option (Expr A)) : Expr A → Expr A
  | .sym a n => (σ a n).getD (.sym a n)
  | .slh s => .slh s
  | .cperm p => .cperm p
  | .cid n => .cid n
  | .series a b => .series (a.subst σ) (b.subst σ)
  | .concat a b => .concat (a.subst σ) (b.subst σ)
  | .feedback a o i => .feedback (a.subst σ) o i
  | .inverse a => .inverse (a.subst σ)

/-- `v` is a dictionary `{A: circuit, ...}` whose keys are the components to be replaced according to `σ`, and whose values are the circuits built from the expressions in `σ` -/
def IsDict (strict : Bool) (σ : ℕ → ℕ → Option (Expr A)) (v : Circ A → Option (Circ A)) : Prop :=
  (∀ a n, σ a n = none → v (.sym a n) = none) ∧ (∀ a n e, σ a n = some e → ∃ f d, simplify strict f e = .ok d ∧ v (.sym a n) = some d) ∧
  ∀ c, (∀ a n, c ≠ .sym a n) → v c = none

section
variable [StarModule ℂ A]

/-- the values of the components after a replacement -/
noncomputable def Valuation.after (ρ : Valuation A) (σ : ℕ → ℕ → Option (Expr A)) (hσ : ∀ a n e, σ a n = some e → e.WellFormed ∧ e.channels = n) : Valuation A where
  val a n := match σ a n with
    | none => ρ.val a n
    | some e => match e.eval ρ.val with
      | .ok s => s
      | .error _ => ρ.val a n
  unitary a n hn := by
    split
    · exact ρ.unitary a n hn
    · rename_i e he
      split
      · rename_i s hs
        obtain ⟨t, -, rfl, -⟩ := mean_of_eval (ρ := ρ) (leaf := Inst.leafT) (h1 := fun s t h => (slhAlg ρ).leaf_dim s t h) (h2 := (slhAlg ρ).leaf_series) (h3 := (slhAlg ρ).leaf_concat) (h4 := (slhAlg ρ).leaf_inv) (h5 := (slhAlg ρ).leaf_fb) e s (hσ a n e he).1 (leavesIn_wf e (hσ a n e he).1) hs
        exact t.2.1
      · exact ρ.unitary a n hn
  dim a n hn := by
    split
    · exact ρ.dim a n hn
    · rename_i e he
      split
      · rename_i s hs
        obtain ⟨t, -, rfl, h⟩ := mean_of_eval (ρ := ρ) (leaf := Inst.leafT) (h1 := fun s t h => (slhAlg ρ).leaf_dim s t h) (h2 := (slhAlg ρ).leaf_series) (h3 := (slhAlg ρ).leaf_concat) (h4 := (slhAlg ρ).leaf_inv) (h5 := (slhAlg ρ).leaf_fb) e s (hσ a n e he).1 (leavesIn_wf e (hσ a n e he).1) hs
        rw [h, (hσ a n e he).2]
      · exact ρ.dim a n hn

theorem eval_subst (ρ : Valuation A) {σ : ℕ → ℕ → Option (Expr A)} (hσ : ∀ a n e, σ a n = some e → e.WellFormed ∧ e.channels = n)
    (hs : ∀ a n e, σ a n = some e → ∃ s, e.eval ρ.val = .ok s) : ∀ e : Expr A, (e.subst σ).eval ρ.val = e.eval (ρ.after σ hσ).val := by
  intro e
  induction e with
  | sym a n =>
    show ((σ a n).getD (.sym a n)).eval ρ.val = .ok ((ρ.after σ hσ).val a n)
    unfold Valuation.after
    dsimp only
    cases h : σ a n with
    | none => rfl
    | some x =>
      obtain ⟨s, e⟩ := hs a n x h
      dsimp only
      rw [Option.getD_some, e]
  | slh s => rfl
  | cperm p => rfl
  | cid n => rfl
  | series a b iha ihb => rw [Expr.subst, Expr.eval, Expr.eval, iha, ihb]
  | concat a b iha ihb => rw [Expr.subst, Expr.eval, Expr.eval, iha, ihb]
  | feedback a o i iha => rw [Expr.subst, Expr.eval, Expr.eval, iha]
  | inverse a iha => rw [Expr.subst, Expr.eval, Expr.eval, iha]

/-- C91 (with feedback, partial correctness): whenever substitution of components by circuits with the same number of channels returns a circuit, then this circuit has the SLH triple of the user's
expression in which the components were replaced literally. As in `C17_slh_partial`, evaluations that close the only
channel of an `SLH` triple are excluded (`true`). -/
theorem C91_substitute_sound (ρ : Valuation A) {σ : ℕ → ℕ → Option (Expr A)} {v : Circ A → Option (Circ A)} {e : Expr A} {c d : Circ A} {s : SLH A} {f f' : ℕ}
    (hσ : ∀ a n e, σ a n = some e → e.WellFormed ∧ e.channels = n) (hs : ∀ a n e, σ a n = some e → ∃ s, e.eval ρ.val = .ok s) (hv : IsDict true σ v) (hw : e.WellFormed)
    (hc : simplify true f e = .ok c) (hd : c.substitute (opsAt true f') v = .ok d) (he : (e.subst σ).eval ρ.val = .ok s) : d.toSLH ρ.val = .ok s := by
  rw [eval_subst ρ hσ hs] at he
  obtain ⟨t, e1, rfl, -⟩ := mean_of_eval (ρ := ρ.after σ hσ) (leaf := Inst.leafT) e s hw (leavesIn_wf e hw) he
  have hV := CircAlg.simplify_sound (M := slhAlg (ρ.after σ hσ)) (s := true) (Or.inl rfl) e1 hc
  have := CircAlg.substitute_sound (M := slhAlg ρ) (w := (slhAlg (ρ.after σ hσ)).symv) (hw := (slhAlg (ρ.after σ hσ)).dim_sym) (opsAt_sound (Or.inl rfl) f') (v := v) ?_ ?_ c t d hV hd
  · exact toSLH_of_den (fun s t h => (Inst.leafT_iff.mp h).1) d t this
  · intro x y hxy u hu
    by_cases hx : ∃ a n, x = .sym a n
    · obtain ⟨a, n, rfl⟩ := hx
      cases h0 : σ a n with
      | none => rw [hv.1 a n h0] at hxy; cases hxy
      | some e' =>
        obtain ⟨f1, d1, k1, k2⟩ := hv.2.1 a n e' h0
        rw [hxy] at k2
        injection k2 with k2
        subst k2
        obtain ⟨s1, hs1⟩ := hs a n e' h0
        obtain ⟨t1, g1, g2, -⟩ := mean_of_eval (ρ := ρ) (leaf := Inst.leafT) e' s1 (hσ a n e' h0).1 (leavesIn_wf e' (hσ a n e' h0).1) hs1
        have hV1 := CircAlg.simplify_sound (M := slhAlg ρ) (s := true) (Or.inl rfl) g1 k1
        obtain ⟨hn, hu⟩ := V_sym.mp hu
        have : t1 = u := by
          rw [hu]
          refine Subtype.ext ?_
          show t1.1 = (Inst.symT (ρ.after σ hσ) a n).1
          rw [toSLH_sym hn, g2]
          unfold Valuation.after
          dsimp only
          rw [h0]
          dsimp only
          rw [hs1]
        rw [← this]
        exact hV1
    · rw [hv.2.2 x fun a n h => hx ⟨a, n, h⟩] at hxy
      cases hxy
  · intro a n h0 hn
    have h1 : σ a n = none := by
      cases h : σ a n with
      | none => rfl
      | some e' =>
        obtain ⟨_, _, _, k⟩ := hv.2.1 a n e' h
        rw [h0] at k
        cases k
    refine Subtype.ext ?_
    show (Inst.symT (ρ.after σ hσ) a n).1 = (Inst.symT ρ a n).1
    rw [toSLH_sym hn, toSLH_sym hn]
    unfold Valuation.after
    dsimp only
    rw [h1]

omit [StarModule ℂ A] in
theorem substitute_conv {v : Circ A → Option (Circ A)} (hv : ∀ c d, v c = some d → Gd d ∧ d.cdim = c.cdim) {c : Circ A} (h : Gd c) :
    ∃ d, Cv (fun f => c.substitute (opsAt true f) v) d ∧ Gd d ∧ d.cdim = c.cdim := by
  have hgood : ∀ {l vs : List (Circ A)}, List.Forall₂ (fun c d => Gd d ∧ d.cdim = c.cdim) l vs → (∀ d ∈ vs, Gd d) ∧ vs.map Circ.cdim = l.map Circ.cdim := by
    intro l vs h
    induction h with
    | nil => exact ⟨by simp, rfl⟩
    | cons h _ ih =>
      refine ⟨fun d hd => ?_, by rw [List.map_cons, List.map_cons, h.2, ih.2]⟩
      rcases List.mem_cons.mp hd with rfl | hd
      · exact h.1
      · exact ih.1 d hd
  have hsome : ∀ {c d : Circ A}, v c = some d → (∀ R : Ops A, c.substitute R v = .ok d) → ∃ d, Cv (fun f => c.substitute (opsAt true f) v) d ∧ Gd d ∧ d.cdim = c.cdim :=
    fun h0 h => ⟨_, ⟨0, fun f _ => h _⟩, hv _ _ h0⟩
  induction h with
  | sym a n h =>
    cases h0 : v (.sym a n) with
    | some d => exact hsome h0 fun R => by rw [Circ.substitute, h0]; rfl
    | none => exact ⟨.sym a n, ⟨0, fun f _ => by dsimp only; rw [Circ.substitute, h0]; rfl⟩, .sym a n h, rfl⟩
  | inv a n h =>
    cases h0 : v (.inv (.sym a n)) with
    | some d => exact hsome h0 fun R => by rw [Circ.substitute, h0]
    | none =>
      have key : ∃ d, Cv (fun f => (Circ.sym a n : Circ A).substitute (opsAt true f) v) d ∧ Gd d ∧ d.cdim = n := by
        cases h0 : v (.sym a n) with
        | some d => exact ⟨d, ⟨0, fun f _ => by dsimp only; rw [Circ.substitute, h0]; rfl⟩, hv _ _ h0⟩
        | none => exact ⟨.sym a n, ⟨0, fun f _ => by dsimp only; rw [Circ.substitute, h0]; rfl⟩, .sym a n h, rfl⟩
      obtain ⟨d, e1, g1, d1⟩ := key
      obtain ⟨x, e2, g2, d2⟩ := inv_all g1
      refine ⟨x, ?_, g2, by rw [d2, d1]; rfl⟩
      refine Cv.congr (F := fun f => (Circ.sym a n : Circ A).substitute (opsAt true f) v >>= fun x => (opsAt true f).inverse x) (Cv.bind e1 e2) fun f => ?_
      conv_lhs => rw [Circ.substitute, h0]
  | slh s h =>
    cases h0 : v (.slh s) with
    | some d => exact hsome h0 fun R => by rw [Circ.substitute, h0]; rfl
    | none => exact ⟨.slh s, ⟨0, fun f _ => by dsimp only; rw [Circ.substitute, h0]; rfl⟩, .slh s h, rfl⟩
  | id1 =>
    cases h0 : v .id1 with
    | some d => exact hsome h0 fun R => by rw [Circ.substitute, h0]; rfl
    | none => exact ⟨.id1, ⟨0, fun f _ => by dsimp only; rw [Circ.substitute, h0]; rfl⟩, .id1, rfl⟩
  | perm p hp =>
    cases h0 : v (.perm p) with
    | some d => exact hsome h0 fun R => by rw [Circ.substitute, h0]
    | none =>
      refine ⟨.perm p, ⟨0, fun f _ => ?_⟩, .perm p hp, rfl⟩
      dsimp only
      rw [Circ.substitute, h0]
      dsimp only
      obtain ⟨h1, h2⟩ := reachable_perm.mp hp
      rw [create_ok h1, if_neg h2]
      rfl
  | concat l hl hg hf hc ih =>
    cases h0 : v (.concat l) with
    | some d => exact hsome h0 fun R => by rw [Circ.substitute, h0]
    | none =>
      obtain ⟨vs, e1, q⟩ := substituteList_cv (v := v) l fun c hc => ih c hc
      obtain ⟨g, d⟩ := hgood q
      have hlen : vs.length = l.length := q.length_eq.symm
      obtain ⟨r, r1, r2, r3⟩ := con_all (l := vs) (by rintro rfl; simp only [List.length_nil] at hlen; omega) g
      refine ⟨r, ?_, r2, by rw [r3, sumCdim_eq, d, ← sumCdim_eq]; rfl⟩
      refine Cv.congr (F := fun f => substituteList (opsAt true f) v l >>= fun x => (opsAt true f).concat x) (Cv.bind e1 r1) fun f => ?_
      rw [Circ.substitute, h0]
  | series l n hl hg hn hc ih =>
    cases h0 : v (.series l) with
    | some d => exact hsome h0 fun R => by rw [Circ.substitute, h0]
    | none =>
      obtain ⟨vs, e1, q⟩ := substituteList_cv (v := v) l fun c hc => ih c hc
      obtain ⟨g, d⟩ := hgood q
      have hd : ∀ c ∈ vs, c.cdim = n := fun c hc => by
        have : c.cdim ∈ l.map Circ.cdim := by rw [← d]; exact List.mem_map_of_mem hc
        obtain ⟨b, hb, e⟩ := List.mem_map.mp this
        rw [← e, (hn b hb).2.1]
      have hlen : vs.length = l.length := q.length_eq.symm
      obtain ⟨r, r1, r2, r3⟩ := ser_all (l := vs) (n := n) (by rintro rfl; simp only [List.length_nil] at hlen; omega) (fun c hc => ⟨g c hc, hd c hc⟩)
      refine ⟨r, ?_, r2, by rw [r3, Gd.series_cdim hl fun c hc => (hn c hc).2.1]⟩
      refine Cv.congr (F := fun f => substituteList (opsAt true f) v l >>= fun x => (opsAt true f).series x) (Cv.bind e1 r1) fun f => ?_
      rw [Circ.substitute, h0]

/-- C91: substitution of components in a circuit without feedback, `circuit.substitute({A: circuit_a, ...})` with feedback-free circuits that have as many channels as the components they replace,
always succeeds; the result has as many channels as the circuit, and for all values of the remaining components its SLH triple is the triple of the user's expression with the components replaced
literally. -/
theorem C91_substitute {σ : ℕ → ℕ → Option (Expr A)} {v : Circ A → Option (Circ A)} {e : Expr A} {c : Circ A} {f : ℕ}
    (hσ : ∀ a n e, σ a n = some e → e.WellFormed ∧ e.NoFeedback ∧ e.channels = n ∧ 0 < n) (hv : IsDict false σ v) (hw : e.WellFormed) (hp : e.NoFeedback) (hc : simplify false f e = .ok c) :
    ∃ f₀ d, (∀ f, f₀ ≤ f → c.substitute (opsAt false f) v = .ok d) ∧ d.cdim = e.channels ∧
      ∀ ρ : Valuation A, ∃ s, (e.subst σ).eval ρ.val = .ok s ∧ d.toSLH ρ.val = .ok s := by
  obtain ⟨c', h1, h2, h3⟩ := simplify_all e hw hp
  obtain rfl := simplify_unique hc h1
  have hv1 : IsDict true σ v := by
    refine ⟨hv.1, fun a n e' he => ?_, hv.2.2⟩
    obtain ⟨f1, d1, k1, k2⟩ := hv.2.1 a n e' he
    obtain ⟨d', g1, -, -⟩ := simplify_all e' (hσ a n e' he).1 (hσ a n e' he).2.1
    obtain rfl := simplify_unique k1 g1
    obtain ⟨f2, g1⟩ := g1
    exact ⟨f2, d1, g1 f2 le_rfl, k2⟩
  have hvg : ∀ c d, v c = some d → Gd d ∧ d.cdim = c.cdim := by
    intro x d hx
    by_cases hs : ∃ a n, x = .sym a n
    · obtain ⟨a, n, rfl⟩ := hs
      cases h0 : σ a n with
      | none => rw [hv.1 a n h0] at hx; cases hx
      | some e' =>
        obtain ⟨f1, d1, k1, k2⟩ := hv.2.1 a n e' h0
        rw [hx] at k2
        injection k2 with k2
        subst k2
        obtain ⟨w1, w2, w3, w4⟩ := hσ a n e' h0
        obtain ⟨d', g1, g2, g3⟩ := simplify_all e' w1 w2
        obtain rfl := simplify_unique k1 g1
        exact ⟨g2.gd (by rw [g3, w3]; exact w4), by rw [g3, w3]; rfl⟩
    · rw [hv.2.2 x fun a n h => hs ⟨a, n, h⟩] at hx
      cases hx
  have key : ∃ d, Cv (fun f => c.substitute (opsAt true f) v) d ∧ d.cdim = c.cdim := by
    rcases h2 with rfl | h2
    · refine ⟨.zero, ⟨0, fun f _ => ?_⟩, rfl⟩
      dsimp only
      rw [Circ.substitute, hv.2.2 .zero (by simp)]
      rfl
    · obtain ⟨d, k1, -, k2⟩ := substitute_conv hvg h2
      exact ⟨d, k1, k2⟩
  obtain ⟨d, ⟨f0, h0⟩, hd⟩ := key
  obtain ⟨f1, h1⟩ := h1
  refine ⟨f0, d, fun f hf => (substitute_mono (opsAt_mono (b := true) (b' := false) (by simp) (le_refl f)) _).1 c d (h0 f hf), by rw [hd, h3], fun ρ => ?_⟩
  have hev : ∀ a n e, σ a n = some e → ∃ s, e.eval ρ.val = .ok s := fun a n e h => eval_total ρ.val e (hσ a n e h).2.1
  have hσ' : ∀ a n e, σ a n = some e → e.WellFormed ∧ e.channels = n := fun a n e h => ⟨(hσ a n e h).1, (hσ a n e h).2.2.1⟩
  obtain ⟨s, hs⟩ := eval_total (ρ.after σ hσ').val e hp
  rw [← eval_subst ρ hσ' hev] at hs
  exact ⟨s, hs, C91_substitute_sound ρ hσ' hev hv1 hw (h1 f1 le_rfl) (h0 f0 le_rfl) hs⟩

/-- the replacement of a component `A` with two channels by `B + C` -/
def exSigma : ℕ → ℕ → Option (Expr A)
  | 0, 2 => some (.concat (.sym 2 1) (.sym 3 1))
  | _, _ => none

/-- the dictionary `{A: B + C}` -/
def exDict : Circ A → Option (Circ A)
  | .sym 0 2 => some (.concat [.sym 2 1, .sym 3 1])
  | _ => none

omit [StarModule ℂ A] in
/-- hypotheses of C91 met: `(P_sigma(1, 2, 0) << (A + D)).substitute({A: B + C})`; the result is `(D + B + C) << P_sigma(1, 2, 0)` -/
example : (∀ a n (e : Expr A), exSigma a n = some e → e.WellFormed ∧ e.NoFeedback ∧ e.channels = n ∧ 0 < n) ∧ IsDict (A := A) false exSigma exDict ∧
    simplify (A := A) false 12 (.series (.cperm [1, 2, 0]) (.concat (.sym 0 2) (.sym 1 1))) = .ok (.series [.concat [.sym 1 1, .sym 0 2], .perm [1, 2, 0]]) ∧
    (Circ.series [.concat [.sym 1 1, .sym 0 2], .perm [1, 2, 0]] : Circ A).substitute (opsAt false 12) exDict = .ok (.series [.concat [.sym 1 1, .sym 2 1, .sym 3 1], .perm [1, 2, 0]]) := by
  refine ⟨fun a n e h => ?_, ⟨fun a n h => ?_, fun a n e h => ?_, fun c h => ?_⟩, ?_, ?_⟩
  · unfold exSigma at h
    split at h
    · injection h with h
      subst h
      exact ⟨⟨by show 0 < 1; omega, by show 0 < 1; omega⟩, ⟨trivial, trivial⟩, rfl, by omega⟩
    · cases h
  · unfold exSigma at h
    split at h
    · cases h
    · rename_i h0
      unfold exDict
      split
      · rename_i e
        injection e with e1 e2
        exact (h0 e1 e2).elim
      · rfl
  · unfold exSigma at h
    split at h
    · injection h with h
      subst h
      exact ⟨12, .concat [.sym 2 1, .sym 3 1], by kernel_rfl, rfl⟩
    · cases h
  · unfold exDict
    split
    · exact absurd rfl (h 0 2)
    · rfl
  · kernel_rfl
  · kernel_rfl

end

end QNET.Circuit
