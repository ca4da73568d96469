import Verif.State.Thm

/-! # Soundness of operators applied to kets, inner and outer products: C58 -/

namespace QNET.State

open QNET.Perm (Res Err)
open QNET.Trace (Cfg Mat ActsOn embed embed_actsOn actsOn_zero actsOn_one)
open QNET.Indexed (Except.bind_ok)
open Matrix

variable {ι K : Type} [Fintype ι] [DecidableEq ι] [CommRing K] [StarRing K] [DecidableEq K] {d : ι → ℕ} {I : Interp ι d K} {mk : Mk ι K}

omit [DecidableEq K] in
theorem sigma_basis {j k m : ℕ} {l : ι} (hk : k < d l) :
    (embed l (Matrix.of fun a b => if (a : ℕ) = j ∧ (b : ℕ) = k then 1 else 0) : Mat d K) *ᵥ basisVec m l = if k = m then basisVec j l else 0 := by
  rw [← outer_basis]
  funext x
  rw [outer_mulVec (basisVec_dep j l) x, inner_basis x hk]
  split <;> simp

theorem opKetLocal_spec (hs : mk.Sound I) {A : Op ι K} {t r : Ket ι K} (h : opKetLocal mk A t = some (.ok r)) (hA : A.wf d) (ht : t.wf d)
    (h0 : t.isZero = false) : r.wf d ∧ r.ev I = A.ev I *ᵥ t.ev I ∧ OkSp r t := by
  have key : mk.rule A t = some (.ok r) → r.wf d ∧ r.ev I = A.ev I *ᵥ t.ev I ∧ OkSp r t := fun hr => by
    obtain ⟨h1, h2, h3⟩ := hs.rule _ _ _ hr hA ht
    exact ⟨h1, h2, h3.imp id fun h => ⟨h0, h⟩⟩
  unfold opKetLocal at h
  split at h
  · rename_i j k l m l'
    split at h
    · rename_i hl
      subst hl
      rw [Op.wf] at hA
      injection h with h
      rw [Op.ev, Ket.ev.eq_4, sigma_basis hA.2]
      split at h
      · rename_i hkm
        injection h with h; subst h
        rw [if_pos hkm, Ket.ev]
        exact ⟨by rw [Ket.wf]; exact hA.1, rfl, .inr ⟨rfl, by rw [Ket.space, Ket.space]⟩⟩
      · rename_i hkm
        injection h with h; subst h
        rw [if_neg hkm, Ket.ev]
        exact ⟨by rw [Ket.wf]; trivial, rfl, .inl rfl⟩
    · exact key h
  · exact key h

theorem opKetTensor_spec (hs : mk.Sound I) (hst : mk.Safe) {n m : ℕ} {ok : Op ι K → Ket ι K → Res (Ket ι K)} (hok : OpKetSpec I ok) {A : Op ι K}
    {t r : Ket ι K} (h : opKetTensor mk (scalKet mk m) ok n A t = .ok r) (hA : A.wf d) (ht : t.wf d) (h0 : t.isZero = false) :
    r.wf d ∧ r.ev I = A.ev I *ᵥ t.ev I ∧ OkSp r t := by
  unfold opKetTensor at h
  split at h
  · rename_i l
    split at h
    · obtain ⟨o, ho, h⟩ := Except.bind_ok h
      exact orRaw_spec h hA ht rfl (actLocally_spec hs hok ho hA ht)
    · split at h
      · rename_i ops
        obtain ⟨o, ho, h⟩ := Except.bind_ok h
        have hA' := hA
        rw [Op.wf, opsWf_iff] at hA'
        exact orRaw_spec h hA ht rfl (actTimesTensor_spec hs hst hok ho hA' ht)
      · exact opKetRest_spec hs hok h hA ht h0
  · exact opKetRest_spec hs hok h hA ht h0

theorem opKetStep_spec (hs : mk.Sound I) (hst : mk.Safe) {n m : ℕ} {ok : Op ι K → Ket ι K → Res (Ket ι K)} (hok : OpKetSpec I ok) {A : Op ι K}
    {t r : Ket ι K} (h : opKetStep mk (scalKet mk m) ok n A t = .ok r) (hA : A.wf d) (ht : t.wf d) :
    r.wf d ∧ r.ev I = A.ev I *ᵥ t.ev I ∧ OkSp r t := by
  unfold opKetStep at h
  split at h
  · injection h with h; subst h
    exact ⟨ht, by rw [Ket.ev, mulVec_zero], .inl rfl⟩
  · rename_i v t'
    rw [Ket.wf] at ht
    obtain ⟨x, hx, h⟩ := Except.bind_ok h
    obtain ⟨x1, x2, x3⟩ := hok _ _ _ hx hA ht.2.1
    obtain ⟨r1, r2, r3, _⟩ := scalKet_spec hs m _ _ _ h ht.1 x1
    refine ⟨r1, by rw [r2, x2, Ket.ev, mulVec_smul], r3.trans (x3.trans (.inr ⟨rfl, by rw [Ket.space]⟩))⟩
  · rename_i h1 h2
    have h0 : t.isZero = false := by
      cases hz : t.isZero
      · rfl
      · exact absurd (isZero_iff.mp hz) h1
    split at h
    · rename_i r' hr
      subst h
      exact opKetLocal_spec hs hr hA ht h0
    · exact opKetTensor_spec hs hst hok h hA ht h0

theorem opKet_spec (hs : mk.Sound I) (hst : mk.Safe) : ∀ n, OpKetSpec I (opKet mk n) := by
  intro n
  induction n with
  | zero => intro A t r h; simp [opKet] at h
  | succ n ih =>
    intro A t r h hA ht
    rw [opKet.eq_def] at h
    simp only at h
    split at h
    · injection h with h; subst h
      exact ⟨ht, by rw [Op.ev, one_mulVec], OkSp.refl _⟩
    · injection h with h; subst h
      exact ⟨by rw [Ket.wf]; trivial, by rw [Op.ev, zero_mulVec, Ket.ev], .inl rfl⟩
    · exact opKetStep_spec hs hst ih h hA ht

/-! ## separating tensor products -/

/-- the two states of an inner or outer product: of the same space, or one of them is zero -/
def Same (a b : Ket ι K) : Prop := a = .zero ∨ b = .zero ∨ a.space = b.space

/-- what `tensor_decompose_kets` finds -/
structure Split (I : Interp ι d K) (l m : List (Ket ι K)) (x y : Ket ι K × Ket ι K) (spc : Finset ι) : Prop where
  left : FactorKet I spc l x.1 x.2
  right : FactorKet I spc m y.1 y.2
  on : x.1.space = y.1.space
  off : x.2.space = y.2.space

theorem splitKets_spec (hs : mk.Sound I) {n : ℕ} {a b : List (Ket ι K)} (ha : (Ket.tensor a).wf d) (hb : (Ket.tensor b).wf d) :
    ∀ (m : ℕ) (spc : Finset ι) (x y : Ket ι K × Ket ι K), splitKets mk n a b m spc = .ok (some (x, y)) → ∃ spc', Split I a b x y spc' := by
  intro m
  induction m with
  | zero => intro spc x y h; simp [splitKets] at h
  | succ m ih =>
    intro spc x y h
    rw [splitKets] at h
    split at h
    · obtain ⟨x', hx, h⟩ := Except.bind_ok h
      obtain ⟨y', hy, h⟩ := Except.bind_ok h
      split at h
      · rename_i hc
        injection h with h; injection h with h
        injection h with h1 h2
        subst h1; subst h2
        exact ⟨spc, factorKet_spec hs hx ha, factorKet_spec hs hy hb, hc.1, hc.2.1⟩
      · exact ih _ x y h
    · cases h

theorem decompose_spec (hs : mk.Sound I) {n : ℕ} {a b : List (Ket ι K)} (ha : (Ket.tensor a).wf d) (hb : (Ket.tensor b).wf d)
    {x y : Ket ι K × Ket ι K} (h : decompose mk n a b = .ok (some (x, y))) : ∃ spc, Split I a b x y spc := by
  obtain ⟨S, hS⟩ := firstLocal_some h
  exact splitKets_spec hs ha hb n S x y hS

/-! ## inner products -/

/-- the specification of the inner product -/
def BraKetSpec (I : Interp ι d K) (bk : Ket ι K → Ket ι K → Res (Sc ι K)) : Prop :=
  ∀ a b s, bk a b = .ok s → a.wf d → b.wf d → Same a b → s.wf d ∧ s.ev I = inner a.space I.ref (a.ev I) (b.ev I)

theorem rawBraKet_spec {a b : Ket ι K} {s : Sc ι K} (h : rawBraKet a b = .ok s) (ha : a.wf d) (hb : b.wf d) :
    s.wf d ∧ s.ev I = inner a.space I.ref (a.ev I) (b.ev I) := by
  rw [rawBraKet] at h
  split at h
  · rename_i hc
    injection h with h; subst h
    exact ⟨by rw [Sc.wf]; exact ⟨ha, hb, hc⟩, by rw [Sc.ev]⟩
  · cases h

omit [CommRing K] [StarRing K] [DecidableEq K] in
theorem Same.space_eq {a b : Ket ι K} (h : Same a b) (ha : a.isZero = false) (hb : b.isZero = false) : a.space = b.space := by
  rcases h with rfl | rfl | h
  · cases ha
  · cases hb
  · exact h

theorem braKetRest_spec (hs : mk.Sound I) {ok : Op ι K → Ket ι K → Res (Ket ι K)} (hok : OpKetSpec I ok) {bk : Ket ι K → Ket ι K → Res (Sc ι K)}
    (hbk : BraKetSpec I bk) {a b : Ket ι K} {s : Sc ι K} (h : braKetRest mk ok bk a b = .ok s) (ha : a.wf d) (hb : b.wf d)
    (ha0 : a.isZero = false) (hb0 : b.isZero = false) (hsp : Same a b) : s.wf d ∧ s.ev I = inner a.space I.ref (a.ev I) (b.ev I) := by
  have hsp' := hsp.space_eq ha0 hb0
  unfold braKetRest at h
  split at h
  · rename_i u a' b
    rw [Ket.wf] at ha
    rw [Ket.space] at hsp'
    obtain ⟨u', hu, h⟩ := Except.bind_ok h
    obtain ⟨s', hs', h⟩ := Except.bind_ok h
    obtain ⟨u1, u2⟩ := hs.scConj _ _ hu ha.1
    obtain ⟨s1, s2⟩ := hbk _ _ _ hs' ha.2.1 hb (.inr (.inr hsp'))
    obtain ⟨r1, r2⟩ := hs.scMul _ _ _ h u1 s1
    exact ⟨r1, by rw [r2, u2, s2, Ket.ev.eq_6, Ket.space.eq_6, inner_smul_left]⟩
  · rename_i A a'
    rw [Ket.wf] at ha
    rw [Ket.space] at hsp'
    obtain ⟨A', hA, h⟩ := Except.bind_ok h
    obtain ⟨x, hx, h⟩ := Except.bind_ok h
    obtain ⟨A1, A2⟩ := hs.opAdj _ _ hA ha.1
    obtain ⟨x1, x2, x3⟩ := hok _ _ _ hx A1 hb
    obtain ⟨s1, s2⟩ := hbk _ _ _ h ha.2.1 x1 (x3.elim (fun h => .inr (.inl h)) fun h => .inr (.inr (hsp'.trans h.2.symm)))
    exact ⟨s1, by rw [s2, x2, A2, Ket.ev.eq_9, Ket.space.eq_9, inner_mulVec (A.ev_acts I ha.1) ha.2.2.1]⟩
  · rename_i u b' _ _
    rw [Ket.wf] at hb
    rw [show (Ket.scal u b').space = b'.space by rw [Ket.space]] at hsp'
    obtain ⟨s', hs', h⟩ := Except.bind_ok h
    obtain ⟨s1, s2⟩ := hbk _ _ _ hs' ha hb.2.1 (.inr (.inr hsp'))
    obtain ⟨r1, r2⟩ := hs.scMul _ _ _ h hb.1 s1
    exact ⟨r1, by rw [r2, s2, Ket.ev.eq_6, inner_smul_right]⟩
  · exact rawBraKet_spec h ha hb

theorem braKetStep_spec (hs : mk.Sound I) {n : ℕ} {ok : Op ι K → Ket ι K → Res (Ket ι K)} (hok : OpKetSpec I ok) {bk : Ket ι K → Ket ι K → Res (Sc ι K)}
    (hbk : BraKetSpec I bk) {a b : Ket ι K} {s : Sc ι K} (h : braKetStep mk ok bk n a b = .ok s) (ha : a.wf d) (hb : b.wf d) (hsp : Same a b) :
    s.wf d ∧ s.ev I = inner a.space I.ref (a.ev I) (b.ev I) := by
  unfold braKetStep at h
  split at h
  · injection h with h; subst h
    exact ⟨by rw [Sc.wf]; trivial, by rw [Sc.ev, Ket.ev.eq_1, inner_zero_right]⟩
  · injection h with h; subst h
    exact ⟨by rw [Sc.wf]; trivial, by rw [Sc.ev, Ket.ev.eq_1, inner_zero_left]⟩
  · rename_i j l k l'
    have hl := hsp.space_eq rfl rfl
    rw [Ket.space, Ket.space, Finset.singleton_inj] at hl
    subst hl
    injection h with h; subst h
    rw [Ket.wf] at ha
    exact ⟨by rw [Sc.wf]; trivial, by rw [Sc.ev, Ket.ev, Ket.ev, Ket.space, inner_basis I.ref ha]⟩
  · rename_i i S j T
    split at h
    · rename_i hc
      obtain ⟨rfl, rfl⟩ := hc
      injection h with h; subst h
      exact ⟨by rw [Sc.wf]; trivial, by rw [Sc.ev, Ket.ev, Ket.space, I.norm]⟩
    · exact rawBraKet_spec h ha hb
  · rename_i l m
    obtain ⟨o, ho, h⟩ := Except.bind_ok h
    split at h
    · rename_i x y
      obtain ⟨spc, hx⟩ := decompose_spec hs ha hb ho
      obtain ⟨s1, h1, h⟩ := Except.bind_ok h
      obtain ⟨s2, h2, h⟩ := Except.bind_ok h
      obtain ⟨p1, p2⟩ := hbk _ _ _ h1 hx.left.on_good.1 hx.right.on_good.1 (.inr (.inr hx.on))
      obtain ⟨q1, q2⟩ := hbk _ _ _ h2 hx.left.off_good.1 hx.right.off_good.1 (.inr (.inr hx.off))
      obtain ⟨r1, r2⟩ := hs.scMul _ _ _ h p1 q1
      refine ⟨r1, ?_⟩
      rw [r2, p2, q2, hx.left.ev, hx.right.ev, Ket.space, ← hx.left.space]
      exact (inner_tensor hx.left.disj I.ref (x.1.ev_dep I hx.left.on_good.1) (hx.on ▸ y.1.ev_dep I hx.right.on_good.1)
        (x.2.ev_dep I hx.left.off_good.1) (hx.off ▸ y.2.ev_dep I hx.right.off_good.1)).symm
    · exact rawBraKet_spec h ha hb
  · rename_i h1 h2 _ _ _
    refine braKetRest_spec hs hok hbk h ha hb ?_ ?_ hsp
    · cases hz : a.isZero
      · rfl
      · exact absurd (isZero_iff.mp hz) h1
    · cases hz : b.isZero
      · rfl
      · exact absurd (isZero_iff.mp hz) h2

theorem braKet_spec (hs : mk.Sound I) (hst : mk.Safe) : ∀ n, BraKetSpec I (braKet mk n) := by
  intro n
  induction n with
  | zero => intro a b s h; simp [braKet] at h
  | succ n ih =>
    intro a b s h ha hb hsp
    rw [braKet] at h
    exact braKetStep_spec hs (opKet_spec hs hst n) ih h ha hb hsp

/-! ## outer products -/

/-- the specification of the outer product -/
def KetBraSpec (I : Interp ι d K) (kb : Ket ι K → Ket ι K → Res (Op ι K)) : Prop :=
  ∀ a b X, kb a b = .ok X → a.wf d → b.wf d → Same a b → X.wf d ∧ X.ev I = outer a.space (a.ev I) (b.ev I)

theorem rawKetBra_spec {a b : Ket ι K} {X : Op ι K} (h : rawKetBra a b = .ok X) (ha : a.wf d) (hb : b.wf d) :
    X.wf d ∧ X.ev I = outer a.space (a.ev I) (b.ev I) := by
  rw [rawKetBra] at h
  split at h
  · rename_i hc
    injection h with h; subst h
    exact ⟨by rw [Op.wf]; exact ⟨ha, hb, hc⟩, by rw [Op.ev]⟩
  · cases h

omit [DecidableEq K] in
theorem outer_right {M : Mat d K} {T : Finset ι} (hM : ActsOn T M) {a b b' : Ket ι K} {f g : Vec d K} (hf : a = .zero → f = 0) (hb : b.space = b'.space)
    (hT : T ⊆ b'.space) (hb0 : b.isZero = false) (hsp : Same a b) : outer a.space f (M *ᵥ g) = outer a.space f g * Mᴴ := by
  rcases hsp with ha | hz | hsp
  · rw [hf ha, outer_zero_left, outer_zero_left, zero_mul]
  · rw [hz] at hb0; cases hb0
  · exact outer_mulVec_right hM (by rw [hsp, hb]; exact hT) f g

theorem ketBraRest_spec (hs : mk.Sound I) {kb : Ket ι K → Ket ι K → Res (Op ι K)}
    (hkb : KetBraSpec I kb) {a b : Ket ι K} {X : Op ι K} (h : ketBraRest mk kb a b = .ok X) (ha : a.wf d) (hb : b.wf d)
    (hsp : Same a b) : X.wf d ∧ X.ev I = outer a.space (a.ev I) (b.ev I) := by
  unfold ketBraRest at h
  split at h
  · rename_i A a'
    have ha0 := ha
    rw [Ket.wf] at ha
    obtain ⟨Y, hY, h⟩ := Except.bind_ok h
    obtain ⟨y1, y2⟩ := hkb _ _ _ hY ha.2.1 hb (by
      rcases hsp with hz | hz | hz
      · cases hz
      · exact .inr (.inl hz)
      · exact .inr (.inr (by rw [← hz, Ket.space])))
    obtain ⟨r1, r2⟩ := hs.opTimes _ _ h (by simp [ha.1, y1])
    refine ⟨r1, ?_⟩
    rw [r2, Ket.ev.eq_9, Ket.space.eq_9, outer_mulVec_left (A.ev_acts I ha.1) ha.2.2.1]
    simp [y2]
  · rename_i A b' _
    rw [Ket.wf] at hb
    obtain ⟨Y, hY, h⟩ := Except.bind_ok h
    obtain ⟨A', hA, h⟩ := Except.bind_ok h
    have hb' : (Ket.opKet A b').space = b'.space := by rw [Ket.space]
    obtain ⟨y1, y2⟩ := hkb _ _ _ hY ha hb.2.1 (by
      rcases hsp with hz | hz | hz
      · exact .inl hz
      · cases hz
      · exact .inr (.inr (hz.trans hb')))
    obtain ⟨A1, A2⟩ := hs.opAdj _ _ hA hb.1
    obtain ⟨r1, r2⟩ := hs.opTimes _ _ h (by simp [A1, y1])
    refine ⟨r1, ?_⟩
    rw [r2, Ket.ev.eq_9, outer_right (A.ev_acts I hb.1) (fun hz => by rw [hz, Ket.ev]) hb' hb.2.2.1 rfl hsp]
    simp [y2, A2]
  · rename_i u a' b _
    rw [Ket.wf] at ha
    obtain ⟨Y, hY, h⟩ := Except.bind_ok h
    obtain ⟨y1, y2⟩ := hkb _ _ _ hY ha.2.1 hb (by
      rcases hsp with hz | hz | hz
      · cases hz
      · exact .inr (.inl hz)
      · exact .inr (.inr (by rw [← hz, Ket.space])))
    obtain ⟨r1, r2⟩ := hs.opScal _ _ _ h ha.1 y1
    exact ⟨r1, by rw [r2, y2, Ket.ev.eq_6, Ket.space.eq_6, outer_smul_left]⟩
  · rename_i u b' _ _ _
    rw [Ket.wf] at hb
    obtain ⟨u', hu, h⟩ := Except.bind_ok h
    obtain ⟨Y, hY, h⟩ := Except.bind_ok h
    obtain ⟨y1, y2⟩ := hkb _ _ _ hY ha hb.2.1 (by
      rcases hsp with hz | hz | hz
      · exact .inl hz
      · cases hz
      · exact .inr (.inr (by rw [hz, Ket.space])))
    obtain ⟨u1, u2⟩ := hs.scConj _ _ hu hb.1
    obtain ⟨r1, r2⟩ := hs.opScal _ _ _ h u1 y1
    exact ⟨r1, by rw [r2, y2, u2, Ket.ev.eq_6, outer_smul_right]⟩
  · exact rawKetBra_spec h ha hb

theorem ketBraStep_spec (hs : mk.Sound I) {n : ℕ} {kb : Ket ι K → Ket ι K → Res (Op ι K)}
    (hkb : KetBraSpec I kb) {a b : Ket ι K} {X : Op ι K} (h : ketBraStep mk kb n a b = .ok X) (ha : a.wf d) (hb : b.wf d) (hsp : Same a b) :
    X.wf d ∧ X.ev I = outer a.space (a.ev I) (b.ev I) := by
  have h0 : ∀ l, (Ket.basis 0 l : Ket ι K).wf d := fun l => by rw [Ket.wf]; exact (I.ref l).pos
  unfold ketBraStep at h
  split at h
  · rename_i j l k l'
    split at h
    · rename_i hl
      subst hl
      injection h with h; subst h
      rw [Ket.wf] at ha hb
      exact ⟨by rw [Op.wf]; exact ⟨ha, hb⟩, by rw [Op.ev, Ket.ev, Ket.ev, Ket.space, outer_basis]⟩
    · exact rawKetBra_spec h ha hb
  · rename_i u l
    rw [Ket.wf] at ha
    obtain ⟨Y, hY, h⟩ := Except.bind_ok h
    obtain ⟨y1, y2⟩ := hkb _ _ _ hY (h0 l) hb (by
      rcases hsp with hz | hz | hz
      · cases hz
      · exact .inr (.inl hz)
      · exact .inr (.inr (by rw [← hz, Ket.space, Ket.space])))
    obtain ⟨r1, r2⟩ := hs.opTimes _ _ h (by simp [y1]; rw [Op.wf]; exact ha)
    refine ⟨r1, ?_⟩
    rw [r2, Ket.ev.eq_5, Ket.space.eq_5, outer_mulVec_left (I.disp_acts _ l) (Finset.Subset.refl _)]
    simp only [List.map_cons, List.map_nil, List.prod_cons, List.prod_nil, mul_one, y2]
    rw [Op.ev, Ket.ev.eq_4, Ket.space]
  · rename_i u l _
    rw [Ket.wf] at hb
    obtain ⟨Y, hY, h⟩ := Except.bind_ok h
    obtain ⟨u', hu, h⟩ := Except.bind_ok h
    obtain ⟨u1, u2⟩ := hs.scMul _ _ _ hu (by rw [Sc.wf]; trivial) hb
    have hb' : (Ket.coh u l).space = (Ket.basis 0 l : Ket ι K).space := by rw [Ket.space, Ket.space]
    obtain ⟨y1, y2⟩ := hkb _ _ _ hY ha (h0 l) (by
      rcases hsp with hz | hz | hz
      · exact .inl hz
      · cases hz
      · exact .inr (.inr (hz.trans hb')))
    obtain ⟨r1, r2⟩ := hs.opTimes _ _ h (by simp [y1]; rw [Op.wf]; exact u1)
    refine ⟨r1, ?_⟩
    rw [r2, Ket.ev.eq_5, outer_right (I.disp_acts _ l) (fun hz => by rw [hz, Ket.ev]) hb' (by rw [Ket.space]) rfl hsp]
    simp only [List.map_cons, List.map_nil, List.prod_cons, List.prod_nil, mul_one, y2]
    rw [Op.ev, Ket.ev.eq_4, I.disp_star, u2, Sc.ev, neg_one_mul]
  · rename_i l m
    obtain ⟨o, ho, h⟩ := Except.bind_ok h
    split at h
    · rename_i x y
      obtain ⟨spc, hx⟩ := decompose_spec hs ha hb ho
      obtain ⟨s1, h1, h⟩ := Except.bind_ok h
      obtain ⟨s2, h2, h⟩ := Except.bind_ok h
      obtain ⟨p1, p2⟩ := hkb _ _ _ h1 hx.left.on_good.1 hx.right.on_good.1 (.inr (.inr hx.on))
      obtain ⟨q1, q2⟩ := hkb _ _ _ h2 hx.left.off_good.1 hx.right.off_good.1 (.inr (.inr hx.off))
      obtain ⟨r1, r2⟩ := hs.opTimes _ _ h (by simp [p1, q1])
      refine ⟨r1, ?_⟩
      rw [r2, hx.left.ev, hx.right.ev, Ket.space, ← hx.left.space, outer_tensor hx.left.disj (x.1.ev_dep I hx.left.on_good.1)
        (hx.on ▸ y.1.ev_dep I hx.right.on_good.1) (x.2.ev_dep I hx.left.off_good.1) (hx.off ▸ y.2.ev_dep I hx.right.off_good.1)]
      simp [p2, q2]
    · exact rawKetBra_spec h ha hb
  · exact ketBraRest_spec hs hkb h ha hb hsp

theorem ketBra_spec (hs : mk.Sound I) : ∀ n, KetBraSpec I (ketBra mk n) := by
  intro n
  induction n with
  | zero => intro a b s h; simp [ketBra] at h
  | succ n ih =>
    intro a b s h ha hb hsp
    rw [ketBra] at h
    exact ketBraStep_spec hs ih h ha hb hsp

end QNET.State
