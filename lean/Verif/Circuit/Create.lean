import Verif.Circuit.FbRules
import Mathlib.Algebra.Group.WithOne.Defs

/-! # Soundness of the `create` methods -/

namespace QNET.Circuit

open QNET.Perm QNET.CPerm

variable {A : Type} [Ring A] [StarRing A] [Algebra ℂ A]

namespace CircAlg

variable {M : CircAlg A}

/-! ### `SeriesProduct.create` -/

theorem flatSeries_eq {r : Circ A} {l : List (Circ A)} (h : flatSeries r = some l) : r = .series l := by
  cases r <;> simp_all [flatSeries]

theorem flatConcat_eq {r : Circ A} {l : List (Circ A)} (h : flatConcat r = some l) : r = .concat l := by
  cases r <;> simp_all [flatConcat]

theorem isId1_eq {r : Circ A} (h : isId1 r = true) : r = .id1 := by
  cases r <;> simp_all [isId1]

theorem isZero_eq {r : Circ A} (h : isZero r = true) : r = .zero := by
  cases r <;> simp_all [isZero]

theorem flatSeries_prod {n : ℕ} (r : Circ A) (l : List (Circ A)) (a : M.Mn n) (h : flatSeries r = some l) (hv : M.Vn n r a) :
    Engine.Prod (M.Vn n) l a ∧ l ≠ [] := by
  have := flatSeries_eq h
  subst this
  obtain ⟨a, rfl⟩ := a
  obtain ⟨h1, -, h2⟩ := V_series.mp hv
  exact ⟨h2, h1⟩

theorem series_engine {R : Ops A} (hs : Sound M R) (n : ℕ) : Engine.Sound (M.Vn n) (seriesRule R) isId1 flatSeries where
  rule := by
    intro x y r a b ha hb h
    exact seriesRule_sound hs ha hb (a.2.trans b.2.symm) h
  neutral := by
    intro r a h hv
    have := isId1_eq h
    subst this
    have e : a.1 = M.one 1 := V_unique hv rfl
    have hn : n = 1 := by rw [← a.2, e, M.dim_one]
    subst hn
    exact Subtype.ext e
  flat := fun r l a h hv => (flatSeries_prod r l a h hv).1

/-- values with an additional unit, to see that a nonempty product does not become empty -/
def V1 (M : CircAlg A) (n : ℕ) (c : Circ A) (t : WithOne (M.Mn n)) : Prop := ∃ a : M.Mn n, t = a ∧ M.Vn n c a

theorem prod_V1 {n : ℕ} : ∀ {l : List (Circ A)} {a : M.Mn n}, l ≠ [] → Engine.Prod (M.Vn n) l a →
    Engine.Prod (M.V1 n) l (a : WithOne (M.Mn n)) := by
  intro l
  induction l with
  | nil => intro a h; exact absurd rfl h
  | cons c l ih =>
    intro a _ h
    obtain ⟨x, y, h1, h2, rfl⟩ := Engine.prod_cons_iff.mp h
    by_cases hl : l = []
    · subst hl
      rw [Engine.prod_nil_iff] at h2
      subst h2
      rw [mul_one, Engine.prod_single_iff]
      exact ⟨x, rfl, h1⟩
    · rw [WithOne.coe_mul, Engine.prod_cons_iff]
      exact ⟨x, y, ⟨x, rfl, h1⟩, ih hl h2, rfl⟩

theorem series_engine1 {R : Ops A} (hs : Sound M R) {n : ℕ} (hn : n ≠ 1) : Engine.Sound (M.V1 n) (seriesRule R) isId1 flatSeries where
  rule := by
    rintro x y r _ _ ⟨a, rfl, ha⟩ ⟨b, rfl, hb⟩ h
    exact ⟨a * b, (WithOne.coe_mul a b).symm, (series_engine hs n).rule x y r a b ha hb h⟩
  neutral := by
    rintro r _ h ⟨a, rfl, hv⟩
    have := isId1_eq h
    subst this
    have e : a.1 = M.one 1 := V_unique hv rfl
    exact absurd (by rw [← a.2, e, M.dim_one]) hn
  flat := by
    rintro r l _ h ⟨a, rfl, hv⟩
    obtain ⟨h1, h2⟩ := flatSeries_prod r l a h hv
    exact prod_V1 h2 h1

theorem assoc_ne_nil {flat : Circ A → Option (List (Circ A))} {l : List (Circ A)} (h : l ≠ [])
    (hf : ∀ c ∈ l, ∀ l', flat c = some l' → l' ≠ []) : Engine.assoc flat l ≠ [] := by
  cases l with
  | nil => exact absurd rfl h
  | cons c l =>
    unfold Engine.assoc
    rw [List.flatMap_cons]
    intro hc
    rw [List.append_eq_nil_iff] at hc
    have := hc.1
    cases e : flat c with
    | none => rw [e] at this; simp at this
    | some l' => rw [e] at this; exact hf c (by simp) l' e this

theorem prod_mem {n : ℕ} {l : List (Circ A)} {m : M.Mn n} (h : Engine.Prod (M.Vn n) l m) : ∀ c ∈ l, ∃ a : M.Mn n, M.Vn n c a := by
  intro c hc
  obtain ⟨ms, h1, -⟩ := h
  obtain ⟨k, hk, rfl⟩ := List.mem_iff_getElem.mp hc
  have := (List.forall₂_iff_get.mp h1)
  exact ⟨_, this.2 k hk (by rw [← this.1]; exact hk)⟩

theorem seriesCreate_sound {R : Ops A} (hs : Sound M R) {f n : ℕ} {l : List (Circ A)} {m : M.Mn n} {c : Circ A} (hne : l ≠ [])
    (hp : Engine.Prod (M.Vn n) l m) (h : seriesCreate R f l = .ok c) : M.V c m.1 := by
  have hp' := Engine.prod_assoc (series_engine hs n).flat hp
  have hne' : Engine.assoc flatSeries l ≠ [] := assoc_ne_nil hne (by
    intro c hc l' hl
    obtain ⟨a, ha⟩ := prod_mem hp c hc
    exact (flatSeries_prod c l' a hl ha).2)
  unfold seriesCreate at h
  generalize Engine.assoc flatSeries l = L at hp' hne' h
  have hcid : ∀ r (a : M.Mn n), isCid r = true → M.Vn n r a → a = 1 := by
    intro r a h1 h2
    apply Subtype.ext
    have := isCid_val h1 h2
    rw [a.2] at this; exact this
  have hfil := Engine.prod_filter hcid hp'
  unfold Engine.filterNeutral at h
  cases L with
  | nil => exact absurd rfl hne'
  | cons o L =>
    simp only at h
    obtain ⟨ov, hov⟩ := prod_mem hp' o (by simp)
    generalize hF : (o :: L).filter (fun x => !isCid x) = F at h hfil
    match F, h, hfil with
    | [], h, hfil =>
      injection h with h; subst h
      rw [Engine.prod_nil_iff] at hfil
      have : isCid o = true := by
        by_contra hc
        have : o ∈ (o :: L).filter (fun x => !isCid x) := List.mem_filter.mpr ⟨by simp, by simp only [Bool.not_eq_true] at hc; rw [hc]; rfl⟩
        rw [hF] at this; cases this
      rw [hfil, ← hcid o ov this hov]; exact hov
    | [x], h, hfil =>
      injection h with h; subst h
      rw [Engine.prod_single_iff] at hfil
      exact hfil
    | x :: y :: F, h, hfil =>
      have hn : 0 < n := by
        by_contra hc
        have hn0 : n = 0 := by omega
        have hx : x ∈ (o :: L).filter (fun x => !isCid x) := by rw [hF]; simp
        rw [List.mem_filter] at hx
        obtain ⟨a, ha⟩ := prod_mem hp' x hx.1
        have := V_zero (M := M) ha (by rw [a.2, hn0])
        subst this
        simp [isCid, beq, cid, Circ.cdim] at hx
      simp only at h
      split at h
      · unfold Engine.matchReplaceBinary at h
        split at h
        · cases h
        · rename_i c' hmr
          split at hmr
          · cases hmr
          · rename_i hred
            injection hmr with hmr; injection hmr with hmr; injection h with h; subst h; subst hmr
            by_cases hn1 : n = 1
            · subst hn1
              have := Engine.reduce_sound (series_engine hs 1) _ _ _ _ hfil hred
              rw [Engine.prod_nil_iff] at this
              rw [this]; rfl
            · have := Engine.reduce_sound (series_engine1 hs hn1) _ _ _ _ (prod_V1 (by simp) hfil) hred
              rw [Engine.prod_nil_iff] at this
              cases this
          · rename_i hred
            injection hmr with hmr; injection hmr with hmr; injection h with h; subst h; subst hmr
            have := Engine.reduce_sound (series_engine hs n) _ _ _ _ hfil hred
            rw [Engine.prod_single_iff] at this
            exact this
          · cases hmr
        · rename_i l' hmr
          split at hmr
          · cases hmr
          · cases hmr
          · cases hmr
          · rename_i hred hx1 hx2
            injection hmr with hmr; injection hmr with hmr; injection h with h; subst h; subst hmr
            have := Engine.reduce_sound (series_engine hs n) _ _ _ _ hfil hx2
            exact V_series' (by intro hc; subst hc; exact hred rfl) hn this
      · cases h

/-! ### `Concatenation.create` -/

theorem concat_engine {R : Ops A} (hs : Sound M R) : Engine.Sound M.Vp (concatRule R) isZero flatConcat where
  rule := by
    intro x y r a b ha hb h
    refine ⟨concatRule_sound hs ha.1 hb.1 h, ?_⟩
    rw [mc_mul, M.dim_concat]; have := ha.2; omega
  neutral := by
    intro r a h hv
    have := isZero_eq h
    subst this
    have e : a = M.one 0 := V_unique hv.1 rfl
    exact e
  flat := by
    intro r l a h hv
    have := flatConcat_eq h
    subst this
    exact (V_concat.mp hv.1).2

theorem concatCreate_sound {R : Ops A} (hs : Sound M R) {f : ℕ} {l : List (Circ A)} {m : M.Mc} {c : Circ A}
    (hp : Engine.Prod M.Vc l m) (h : concatCreate R f l = .ok c) : M.V c m := by
  have hflat : ∀ (r : Circ A) l a, flatConcat r = some l → M.Vc r a → Engine.Prod M.Vc l a := by
    intro r l a h hv
    have := flatConcat_eq h
    subst this
    exact prod_p (V_concat.mp hv).2
  have hp' := Engine.prod_assoc hflat hp
  unfold concatCreate Engine.createAssoc at h
  generalize Engine.assoc flatConcat l = L at hp' h
  have hz : ∀ (r : Circ A) (a : M.Mc), isZero r = true → M.Vc r a → a = 1 := by
    intro r a h hv
    have := isZero_eq h
    subst this
    exact V_unique hv rfl
  have hfil := Engine.prod_filter hz hp'
  unfold Engine.filterNeutral at h
  cases L with
  | nil =>
    injection h with h; subst h
    rw [Engine.prod_nil_iff] at hp'
    rw [hp']; rfl
  | cons o L =>
    simp only at h
    generalize hF : (o :: L).filter (fun x => !isZero x) = F at h hfil
    have hpos : Engine.Prod M.Vp F m := by
      obtain ⟨ms, h1, h2⟩ := hfil
      refine ⟨ms, forall₂_p.mpr ⟨h1, ?_⟩, h2⟩
      intro t ht
      obtain ⟨k, hk, rfl⟩ := List.mem_iff_getElem.mp ht
      have hg := List.forall₂_iff_get.mp h1
      have hk' : k < F.length := by rw [hg.1]; exact hk
      have hv := hg.2 k hk' hk
      by_contra hc
      have := V_zero (M := M) hv (by simp only [List.get_eq_getElem] at *; omega)
      have hm : F.get ⟨k, hk'⟩ ∈ F := List.get_mem _ _
      rw [this, ← hF, List.mem_filter] at hm
      simp [isZero] at hm
    match F, h, hpos with
    | [], h, hpos =>
      injection h with h; subst h
      rw [Engine.prod_nil_iff] at hpos
      have : isZero o = true := by
        by_contra hc
        have : o ∈ (o :: L).filter (fun x => !isZero x) := List.mem_filter.mpr ⟨by simp, by simp only [Bool.not_eq_true] at hc; rw [hc]; rfl⟩
        rw [hF] at this; cases this
      have := isZero_eq this
      subst this
      rw [hpos]; rfl
    | [x], h, hpos =>
      injection h with h; subst h
      rw [Engine.prod_single_iff] at hpos
      exact hpos.1
    | x :: y :: F, h, hpos =>
      unfold Engine.matchReplaceBinary at h
      simp only at h
      split at h
      · cases h
      · rename_i c' hmr
        split at hmr
        · cases hmr
        · rename_i hred
          injection hmr with hmr; injection hmr with hmr; injection h with h; subst h; subst hmr
          have := Engine.reduce_sound (concat_engine hs) _ _ _ _ hpos hred
          rw [Engine.prod_nil_iff] at this
          rw [this]; rfl
        · rename_i hred
          injection hmr with hmr; injection hmr with hmr; injection h with h; subst h; subst hmr
          have := Engine.reduce_sound (concat_engine hs) _ _ _ _ hpos hred
          rw [Engine.prod_single_iff] at this
          exact this.1
        · cases hmr
      · rename_i l' hmr
        split at hmr
        · cases hmr
        · cases hmr
        · cases hmr
        · rename_i hred hx1 hx2
          injection hmr with hmr; injection hmr with hmr; injection h with h; subst h; subst hmr
          have := Engine.reduce_sound (concat_engine hs) _ _ _ _ hpos hx2
          exact V_concat.mpr ⟨by intro hc; subst hc; exact hred rfl, this⟩

/-! ### `Feedback.create` -/

theorem feedbackCreate_dim {s : Bool} {R : Ops A} {c r : Circ A} {o i : ℕ} (h : feedbackCreate s R c o i = .ok r) : 2 ≤ c.cdim := by
  unfold feedbackCreate at h
  split at h
  · cases h
  · omega

theorem feedbackCreate_sound {s : Bool} (hst : Strict M s) {R : Ops A} (hs : Sound M R) {c r : Circ A} {o i : ℕ} {t u : M.T}
    (hv : M.V c t) (hu : M.fb t o i = some u) (h : feedbackCreate s R c o i = .ok r) : M.V r u := by
  unfold feedbackCreate at h
  split at h
  · cases h
  · split at h
    · exact concatFeedback_sound hst hs hv hu h
    · exact slhFeedback_sound hv hu h
    · rw [bind_ok] at h
      obtain ⟨y, h1, h2⟩ := h
      injection h2 with h2; subst h2
      obtain ⟨hp, rfl⟩ := V_perm.mp hv
      exact permFeedback_sound hp hu h1
    · rw [bind_ok] at h
      obtain ⟨x, h1, h⟩ := h
      cases x with
      | some x =>
        injection h with h; subst h
        exact feedbackRules_sound hst hs hv hu h1
      | none =>
        injection h with h; subst h
        exact V_fb.mpr ⟨t, hv, hu⟩

/-! ### `series_inverse` -/

theorem inverse_list {R : Ops A} (hs : Sound M R) {l fs : List (Circ A)} {ts : List M.T} (h : List.Forall₂ M.V l ts)
    (hd : ∀ t ∈ ts, 0 < M.dim t) (hm : l.mapM R.inverse = .ok fs) : List.Forall₂ M.V fs (ts.map M.inv) := by
  replace hm := mapM_ok hm
  induction h generalizing fs with
  | nil => cases hm; exact .nil
  | cons h1 _ ih =>
    cases hm with
    | cons h2 h3 => exact .cons (hs.inverse h1 (hd _ (by simp)) h2) (ih (fun t ht => hd t (by simp [ht])) h3)

theorem inv_prod (ts : List M.Mc) : M.inv ts.prod = ((ts.map M.inv : List M.Mc)).prod := by
  induction ts with
  | nil => exact inv_one 0
  | cons t ts ih => rw [List.prod_cons, List.map_cons, List.prod_cons, mc_mul, inv_concat, ih]; rfl

theorem invn_prod {n : ℕ} (ts : List (M.Mn n)) : invn ts.prod = (ts.reverse.map invn).prod := by
  induction ts with
  | nil => exact invn_one n
  | cons t ts ih => rw [List.prod_cons, invn_mul, ih]; simp

theorem inverseCreate_sound {R : Ops A} (hs : Sound M R) {c r : Circ A} {t : M.T} (hv : M.V c t) (hd : 0 < M.dim t)
    (h : inverseCreate R c = .ok r) : M.V r (M.inv t) := by
  cases c with
  | sym a n =>
    injection h with h; subst h
    obtain ⟨h1, rfl⟩ := V_sym.mp hv
    exact V_inv.mpr ⟨a, n, rfl, h1, rfl⟩
  | slh s =>
    injection h with h; subst h
    exact M.leaf_inv s t hv
  | perm p =>
    simp only [inverseCreate] at h
    rw [bind_ok] at h
    obtain ⟨q, h1, h2⟩ := h
    injection h2 with h2; subst h2
    obtain ⟨hp, rfl⟩ := V_perm.mp hv
    obtain ⟨d, e1, e2, e3⟩ := seriesInverse_ok hp
    simp only [seriesInverse] at e1
    rw [h1] at e1
    change Except.ok (PC.perm q) = _ at e1
    injection e1 with e1; subst e1
    have e3 : q = Perm.inv p := e3
    rw [inv_perm (show Valid p from hp.valid)]
    exact V_perm.mpr ⟨e2, by rw [e3]⟩
  | id1 =>
    injection h with h; subst h
    rw [show t = M.one 1 from V_unique hv rfl, inv_one]; rfl
  | zero =>
    rw [show t = M.one 0 from V_unique hv rfl, M.dim_one] at hd
    exact absurd hd (by omega)
  | series ops =>
    simp only [inverseCreate] at h
    rw [bind_ok] at h
    obtain ⟨fs, h1, h2⟩ := h
    obtain ⟨k1, k2, ms, k3, k4⟩ := V_series.mp hv
    have hrev : List.Forall₂ M.V ops.reverse (ms.reverse.map Subtype.val) :=
      forall₂_sub (List.forall₂_reverse_iff.mpr k3)
    have hfs := inverse_list hs hrev (by
      intro t' ht'
      rw [List.mem_map] at ht'
      obtain ⟨y, -, rfl⟩ := ht'
      rw [y.2]; exact hd) h1
    have e : (ms.reverse.map Subtype.val).map M.inv = (ms.reverse.map invn).map Subtype.val := by
      rw [List.map_map, List.map_map]; rfl
    rw [e] at hfs
    have := hs.series (n := M.dim t) (m := (ms.reverse.map invn).prod) (by
      intro hc; subst hc
      have := hfs.length_eq
      have h3 := k3.length_eq
      simp at this
      rw [← this] at h3; exact k1 (by simpa using h3)) ⟨_, forall₂_lift hfs, rfl⟩ h2
    rw [← invn_prod, k4] at this
    exact this
  | concat ops =>
    simp only [inverseCreate] at h
    rw [bind_ok] at h
    obtain ⟨fs, h1, h2⟩ := h
    obtain ⟨k1, ms, k3, k4⟩ := V_concat.mp hv
    obtain ⟨k5, k6⟩ := forall₂_p.mp k3
    have hfs := inverse_list hs k5 k6 h1
    have := hs.concat ⟨_, hfs, rfl⟩ h2
    rw [← inv_prod, k4] at this
    exact this
  | fb c o i =>
    simp only [inverseCreate] at h
    rw [bind_ok] at h
    obtain ⟨d, h1, h2⟩ := h
    obtain ⟨u, k1, k2⟩ := V_fb.mp hv
    have hu := (fb_some_lt k2).2.2.1
    exact hs.feedback (hs.inverse k1 (by omega) h1) (M.fb_inv _ _ _ _ k2) h2
  | inv c =>
    injection h with h; subst h
    obtain ⟨a, n, rfl, h1, rfl⟩ := V_inv.mp hv
    rw [inv_inv]
    exact V_sym.mpr ⟨h1, rfl⟩

/-! ### tying the knot -/

theorem opsAt_sound {s : Bool} (hst : Strict M s) : ∀ f, Sound M (opsAt s f)
  | 0 => {
      series := fun _ _ h => by simp [opsAt] at h
      concat := fun _ h => by simp [opsAt] at h
      feedback := fun _ _ h => by simp [opsAt] at h
      fb_dim := fun h => by simp [opsAt] at h
      inverse := fun _ _ h => by simp [opsAt] at h }
  | f + 1 =>
    have hs := opsAt_sound hst f
    ⟨fun h1 h2 h3 => seriesCreate_sound hs h1 h2 h3, fun h1 h2 => concatCreate_sound hs h1 h2,
      fun h1 h2 h3 => feedbackCreate_sound hst hs h1 h2 h3, fun h => feedbackCreate_dim h,
      fun h1 h2 h3 => inverseCreate_sound hs h1 h2 h3⟩

/-- the meaning of a user expression -/
def mean (M : CircAlg A) : Expr A → Option M.T
  | .sym s n => if 0 < n then some (M.symv s n) else none
  | .slh s => M.leaf s
  | .cperm p => if check p then some (M.perm p) else none
  | .cid n => some (M.one n)
  | .series a b => (mean M a).bind (fun x => (mean M b).bind (fun y => if M.dim x = M.dim y then some (M.series x y) else none))
  | .concat a b => (mean M a).bind (fun x => (mean M b).map (fun y => M.concat x y))
  | .feedback a o i => (mean M a).bind (fun x => M.fb x o i)
  | .inverse a => (mean M a).bind (fun x => if 0 < M.dim x then some (M.inv x) else none)

/-- evaluation of user expressions preserves their meaning -/
theorem simplify_sound {s : Bool} (hst : Strict M s) {f : ℕ} : ∀ {e : Expr A} {c : Circ A} {t : M.T},
    M.mean e = some t → simplify s f e = .ok c → M.V c t := by
  intro e
  induction e with
  | sym a n =>
    intro c t h1 h2
    injection h2 with h2; subst h2
    exact h1
  | slh x =>
    intro c t h1 h2
    injection h2 with h2; subst h2
    exact h1
  | cperm p =>
    intro c t h1 h2
    simp only [simplify] at h2
    rw [bind_ok] at h2
    obtain ⟨d, h3, h2⟩ := h2
    injection h2 with h2; subst h2
    simp only [mean] at h1
    split at h1
    · injection h1 with h1; subst h1
      have := V_ofPC (A := A) (M := M) (c := d) ⟨_, h3⟩
      rw [(create_tuple h3).2.1] at this
      exact this
    · cases h1
  | cid n =>
    intro c t h1 h2
    injection h2 with h2; subst h2
    injection h1 with h1; subst h1
    exact V_cid n
  | series a b iha ihb =>
    intro c t h1 h2
    simp only [simplify] at h2
    rw [bind_ok] at h2; obtain ⟨x, g1, h2⟩ := h2
    rw [bind_ok] at h2; obtain ⟨y, g2, h2⟩ := h2
    simp only [mean] at h1
    rw [Option.bind_eq_some_iff] at h1; obtain ⟨u, k1, h1⟩ := h1
    rw [Option.bind_eq_some_iff] at h1; obtain ⟨v, k2, h1⟩ := h1
    split at h1
    · rename_i hd
      injection h1 with h1; subst h1
      exact (opsAt_sound hst f).series2 (iha k1 g1) (ihb k2 g2) hd h2
    · cases h1
  | concat a b iha ihb =>
    intro c t h1 h2
    simp only [simplify] at h2
    rw [bind_ok] at h2; obtain ⟨x, g1, h2⟩ := h2
    rw [bind_ok] at h2; obtain ⟨y, g2, h2⟩ := h2
    simp only [mean] at h1
    rw [Option.bind_eq_some_iff] at h1; obtain ⟨u, k1, h1⟩ := h1
    rw [Option.map_eq_some_iff] at h1; obtain ⟨v, k2, rfl⟩ := h1
    exact (opsAt_sound hst f).concat2 (iha k1 g1) (ihb k2 g2) h2
  | feedback a o i iha =>
    intro c t h1 h2
    simp only [simplify] at h2
    rw [bind_ok] at h2; obtain ⟨x, g1, h2⟩ := h2
    simp only [mean] at h1
    rw [Option.bind_eq_some_iff] at h1; obtain ⟨u, k1, h1⟩ := h1
    exact feedbackMethod_sound hst (opsAt_sound hst f) (iha k1 g1) h1 h2
  | inverse a iha =>
    intro c t h1 h2
    simp only [simplify] at h2
    rw [bind_ok] at h2; obtain ⟨x, g1, h2⟩ := h2
    simp only [mean] at h1
    rw [Option.bind_eq_some_iff] at h1; obtain ⟨u, k1, h1⟩ := h1
    split at h1
    · rename_i hd
      injection h1 with h1; subst h1
      exact (opsAt_sound hst f).inverse (iha k1 g1) hd h2
    · cases h1

end CircAlg
end QNET.Circuit
