import Verif.SLH.Fb
import Mathlib.Tactic.IntervalCases

/-!
# Property theorems for SLH triples (C13–C16, and the SLH parts of C08–C10)

Vocabulary: `Verif/SLH/Spec.lean`.
-/

namespace QNET.SLH

open Finset QNET.Perm QNET.CPerm

variable {A : Type} [Ring A] [StarRing A] [Algebra ℂ A] [StarModule ℂ A]

theorem ofPerm_range (n : ℕ) : (ofPerm (List.range n) : SLH A) = passThrough n := by
  refine ext' (by simp [passThrough, mk']) ?_ ?_ ?_
  · intro i j hi hj
    simp only [ofPerm_n, List.length_range] at hi hj
    rw [ofPerm_S (valid_range n), passThrough, mk'_S hi hj, List.getElem?_range hj]
    simp [eq_comm]
  · intro i _; simp [ofPerm, passThrough, mk']
  · rfl

theorem toAff_passThrough (n : ℕ) : toAff (passThrough n : SLH A) = Aff.one n := by
  rw [← ofPerm_range, toAff_ofPerm (valid_range n), Aff.perm_range]

theorem passThrough_unitary (n : ℕ) : Unitary (passThrough n : SLH A) := by
  rw [← ofPerm_range]; exact ⟨Iso.ofPerm (valid_range n), CoIso.ofPerm (valid_range n)⟩

/-! ### C13 -/

/-- C13: the series product is associative (isometric `S` of the two downstream components). -/
theorem C13_assoc {a b c : SLH A} (hab : a.n = b.n) (hbc : b.n = c.n) (ha : Iso a) (hb : Iso b) :
    series (series a b) c = series a (series b c) := by
  apply toAff_inj
  rw [toAff_series (by simpa using hab.trans hbc) (Iso.series hab ha hb), toAff_series hab ha,
    toAff_series (by simpa using hab) ha, toAff_series hbc hb, Aff.series_assoc (by simpa using hab) (by simpa using hbc)]

/-- C13: pass-through is a left unit, for every triple. -/
theorem C13_left_unit (a : SLH A) : series (passThrough a.n) a = a := by
  apply toAff_inj
  rw [toAff_series (by rfl) (passThrough_unitary _).1, toAff_passThrough, Aff.one_series (by rfl)]

/-- C13: pass-through is a right unit, for every triple. -/
theorem C13_right_unit (a : SLH A) : series a (passThrough a.n) = a := by
  have hL : ∀ k, (passThrough a.n : SLH A).L k = 0 := by intro k; simp [passThrough, mk']
  refine ext' (by rfl) ?_ ?_ ?_
  · intro i j hi hj
    simp only [series_n] at hi hj
    rw [series, mk'_S hi hj]
    rw [← Aff.sum_ite_eq_right hj (fun k => a.S i k)]
    apply Finset.sum_congr rfl
    intro k hk
    rw [passThrough, mk'_S (Finset.mem_range.mp hk) hj]
  · intro i hi
    simp only [series_n] at hi
    rw [series, mk'_L hi]; simp [hL]
  · have : (passThrough a.n : SLH A).H = 0 := rfl
    simp only [series, mk', hL, mul_zero, Finset.sum_const_zero, this, add_zero]
    rw [imAdjoint_of_selfAdjoint (by simp), add_zero]

/-- C13: with unitary `S`, `series_inverse` is a two-sided inverse. -/
theorem C13_inverse {a : SLH A} (ha : Unitary a) :
    series a (inverse a) = passThrough a.n ∧ series (inverse a) a = passThrough a.n :=
  ⟨series_inverse ha.2, inverse_series ha.1⟩

/-- C13: inverting twice gives back the triple. -/
theorem C13_inverse_inverse {a : SLH A} (ha : CoIso a) : inverse (inverse a) = a := by
  refine ext' (by rfl) ?_ ?_ ?_
  · intro i j hi hj
    simp only [inverse_n] at hi hj
    rw [inverse, mk'_S (n := (inverse a).n) hi hj, inverse, mk'_S hj hi, star_star]
  · intro i hi
    simp only [inverse_n] at hi
    have e : ∀ k ∈ range a.n, star ((inverse a).S k i) * (inverse a).L k =
        - (a.S i k * ∑ m ∈ range a.n, star (a.S m k) * a.L m) := by
      intro k hk
      have hk := Finset.mem_range.mp hk
      rw [inverse, mk'_S hk hi, mk'_L hk, star_star, mul_neg]
    rw [show (inverse (inverse a)).L i = - ∑ k ∈ range a.n, star ((inverse a).S k i) * (inverse a).L k from
      mk'_L (n := (inverse a).n) hi, Finset.sum_congr rfl e, Finset.sum_neg_distrib, neg_neg]
    simp only [Finset.mul_sum]
    rw [Finset.sum_comm]
    have e2 : ∀ m ∈ range a.n, ∑ k ∈ range a.n, a.S i k * (star (a.S m k) * a.L m) = (if i = m then 1 else 0) * a.L m := by
      intro m hm
      rw [← ha i m hi (Finset.mem_range.mp hm), Finset.sum_mul]
      apply Finset.sum_congr rfl; intro k _; rw [mul_assoc]
    rw [Finset.sum_congr rfl e2, Aff.sum_ite_eq_left hi]
  · change - -a.H = a.H
    rw [neg_neg]

/-- C13: `(a << b)⁻¹ = b⁻¹ << a⁻¹`. -/
theorem C13_inverse_series {a b : SLH A} (hab : a.n = b.n) (ha : Unitary a) (hb : Unitary b) :
    inverse (series a b) = series (inverse b) (inverse a) := by
  have hs : Unitary (series a b) := ⟨Iso.series hab ha.1 hb.1, CoIso.series hab ha.2 hb.2⟩
  have hia : Unitary (inverse a) := ⟨Iso.inverse ha.2, CoIso.inverse ha.1⟩
  have hib : Unitary (inverse b) := ⟨Iso.inverse hb.2, CoIso.inverse hb.1⟩
  have h1 := (C13_inverse hs).2
  -- multiply on the right with b⁻¹ ≪ a⁻¹
  have h2 : series (series a b) (series (inverse b) (inverse a)) = passThrough a.n := by
    rw [C13_assoc hab (by simp) ha.1 hb.1, ← C13_assoc (a := b) (by simp) (by simp [hab]) hb.1 hib.1, (C13_inverse hb).1,
      ← hab]
    have := C13_left_unit (inverse a)
    rw [inverse_n] at this
    rw [this, (C13_inverse ha).1]
  have h3 : series (inverse (series a b)) (series (series a b) (series (inverse b) (inverse a))) =
      series (inverse b) (inverse a) := by
    rw [← C13_assoc (by simp) (by simp [hab]) (Iso.inverse hs.2) hs.1, h1]
    have := C13_left_unit (series (inverse b) (inverse a))
    simp only [series_n, inverse_n] at this ⊢
    rw [hab, this]
  rw [h2] at h3
  have := C13_right_unit (inverse (series a b))
  simp only [series_n, inverse_n] at this
  rw [← h3, this]

/-! ### C14 -/

/-- C14: concatenation is associative. -/
theorem C14_assoc (a b c : SLH A) : concat (concat a b) c = concat a (concat b c) := by
  apply toAff_inj
  simp only [toAff_concat, Aff.concat_assoc]

/-- C14: the empty circuit is neutral. -/
theorem C14_unit (a : SLH A) : concat (passThrough 0) a = a ∧ concat a (passThrough 0) = a := by
  constructor <;> apply toAff_inj
  · rw [toAff_concat, toAff_passThrough, Aff.zero_concat]
  · rw [toAff_concat, toAff_passThrough, Aff.concat_zero]

theorem imAdjoint_add (m m' : A) : imAdjoint (m + m') = imAdjoint m + imAdjoint m' := by
  unfold imAdjoint; rw [star_add]; module

/-- C14: interchange law. -/
theorem C14_interchange {a1 a2 b1 b2 : SLH A} (h1 : a1.n = b1.n) (h2 : a2.n = b2.n) :
    series (concat a1 a2) (concat b1 b2) = concat (series a1 b1) (series a2 b2) := by
  have key := Aff.interchange (a1 := toAff a1) (a2 := toAff a2) (b1 := toAff b1) (b2 := toAff b2) h1 h2
  refine ext' (by rfl) ?_ ?_ ?_
  · intro i j hi hj
    simp only [series_n, concat_n] at hi hj
    have e := congrArg (fun z => z.S i j) key
    rw [← toAff_concat, ← toAff_concat, Aff.series_S (by simpa using hi) (by simpa using hj),
      Aff.concat_S (by simpa using hi) (by simpa using hj)] at e
    simp only [toAff_S, toAff_n, concat_n, Aff.series_n] at e
    rw [series, mk'_S (by simpa using hi) (by simpa using hj), concat_S_cases _ _ _ _ (by simpa using hi) (by simpa using hj)]
    simp only [concat_n, series_n]
    rw [e]
    by_cases ci : i < a1.n <;> by_cases cj : j < a1.n <;> simp only [ci, cj, if_true, if_false]
    · rw [Aff.series_S ci cj, series, mk'_S ci cj]; simp only [toAff_S, toAff_n]
    · rw [Aff.series_S (by simp; omega) (by simp; omega), series, mk'_S (by omega) (by omega)]; simp only [toAff_S, toAff_n]
  · intro i hi
    simp only [series_n, concat_n] at hi
    have e := congrArg (fun z => z.L i) key
    rw [← toAff_concat, ← toAff_concat, Aff.series_L (by simpa using hi), Aff.concat_L (by simpa using hi)] at e
    simp only [toAff_S, toAff_L, toAff_n, concat_n, Aff.series_n] at e
    rw [series, mk'_L (by simpa using hi)]
    simp only [concat_n]
    rw [e, show (concat (series a1 b1) (series a2 b2)).L i = if i < (series a1 b1).n then (series a1 b1).L i else
      (series a2 b2).L (i - (series a1 b1).n) from mk'_L (by simpa using hi)]
    simp only [series_n]
    by_cases ci : i < a1.n <;> simp only [ci, if_true, if_false]
    · rw [Aff.series_L ci, series, mk'_L ci]; simp only [toAff_S, toAff_L, toAff_n]
    · rw [Aff.series_L (by simp; omega), series, mk'_L (by omega)]; simp only [toAff_S, toAff_L, toAff_n]
  · change a1.H + a2.H + (b1.H + b2.H) + imAdjoint _ = (a1.H + b1.H + imAdjoint _) + (a2.H + b2.H + imAdjoint _)
    have e : ∑ k ∈ range (concat a1 a2).n, (∑ i ∈ range (concat a1 a2).n, star ((concat a1 a2).L i) * (concat a1 a2).S i k) *
        (concat b1 b2).L k =
        ∑ k ∈ range a1.n, (∑ i ∈ range a1.n, star (a1.L i) * a1.S i k) * b1.L k +
        ∑ k ∈ range a2.n, (∑ i ∈ range a2.n, star (a2.L i) * a2.S i k) * b2.L k := by
      have hR : ∀ k, ∑ i ∈ range (concat a1 a2).n, star ((concat a1 a2).L i) * (concat a1 a2).S i k =
          - (Aff.concat (toAff a1) (toAff a2)).R k := by
        intro k; rw [← toAff_concat, toAff_R', neg_neg]
      have hR1 : ∀ k, - (toAff a1).R k = ∑ i ∈ range a1.n, star (a1.L i) * a1.S i k := by
        intro k; rw [toAff_R', neg_neg]
      have hR2 : ∀ k, - (toAff a2).R k = ∑ i ∈ range a2.n, star (a2.L i) * a2.S i k := by
        intro k; rw [toAff_R', neg_neg]
      simp only [hR]
      apply Aff.sum_split
      · intro k hk
        rw [Aff.concat_Rl (by simpa using hk), hR1, ← toAff_L, toAff_concat, Aff.concat_Ll (by simp; omega), toAff_L]
      · intro k hk
        rw [Aff.concat_Rr (by simp), ← toAff_L, toAff_concat, Aff.concat_Lr (by simp; omega), toAff_L]
        simp only [toAff_n, Nat.add_sub_cancel_left, hR2, ← h1]
    rw [e, imAdjoint_add]
    abel

/-! ### C15 -/

theorem star_imAdjoint (m : A) : star (imAdjoint m) = imAdjoint m := by
  unfold imAdjoint
  rw [star_smul, star_sub, star_star]
  have : star (Complex.I / 2) = - (Complex.I / 2) := by
    rw [Complex.star_def, map_div₀, Complex.conj_I, neg_div]
    rw [show (starRingEnd ℂ) 2 = 2 from Complex.conj_ofNat 2]
  rw [this]; module

/-- C15: series products of physical triples are physical. -/
theorem C15_series {a b : SLH A} (hab : a.n = b.n) (ha : Physical a) (hb : Physical b) : Physical (series a b) :=
  ⟨Iso.series hab ha.1 hb.1, CoIso.series hab ha.2.1 hb.2.1, by
    change star (a.H + b.H + imAdjoint _) = a.H + b.H + imAdjoint _
    rw [star_add, star_add, star_imAdjoint, ha.2.2, hb.2.2]⟩

/-- C15: concatenations of physical triples are physical. -/
theorem C15_concat {a b : SLH A} (ha : Physical a) (hb : Physical b) : Physical (concat a b) :=
  ⟨Iso.concat ha.1 hb.1, CoIso.concat ha.2.1 hb.2.1, by
    change star (a.H + b.H) = a.H + b.H
    rw [star_add, ha.2.2, hb.2.2]⟩

/-- C15: inverses of physical triples are physical. -/
theorem C15_inverse {a : SLH A} (ha : Physical a) : Physical (inverse a) :=
  ⟨Iso.inverse ha.2.1, CoIso.inverse ha.1, by
    change star (-a.H) = -a.H
    rw [star_neg, ha.2.2]⟩

/-- C15: permutation circuits are physical. -/
theorem C15_perm {p : List Nat} (hp : IsBijection p) : Physical (ofPerm p : SLH A) :=
  ⟨Iso.ofPerm ((valid_iff p).mpr hp), CoIso.ofPerm ((valid_iff p).mpr hp), by simp [ofPerm, mk']⟩

theorem fbLast_H {a : SLH A} {x : A} (h : star a.H = a.H) : star (fbLast a x).H = (fbLast a x).H := by
  change star (a.H + imAdjoint _) = a.H + imAdjoint _
  rw [star_add, star_imAdjoint, h]

theorem feedbackLast_H {a b : SLH A} (h : star a.H = a.H) (hb : feedbackLast a = .ok b) : star b.H = b.H := by
  unfold feedbackLast at hb
  simp only at hb
  split at hb
  · injection hb with hb
    subst hb
    change star (a.H + imAdjoint _) = a.H + imAdjoint _
    rw [star_add, star_imAdjoint, h]
  · cases hb

theorem feedback_H {a b : SLH A} {o i : ℕ} (h : star a.H = a.H) (hb : feedback a o i = .ok b) : star b.H = b.H := by
  have hser : ∀ {a b : SLH A}, star a.H = a.H → star b.H = b.H → star (series a b).H = (series a b).H := by
    intro a b ha hb
    change star (a.H + b.H + imAdjoint _) = a.H + b.H + imAdjoint _
    rw [star_add, star_add, star_imAdjoint, ha, hb]
  have hpc : ∀ c : PC, star (ofPC c : SLH A).H = (ofPC c : SLH A).H := by intro c; simp [ofPC, ofPerm, mk']
  unfold feedback at hb
  simp only at hb
  split at hb
  · cases hm : mapChannels [(o, a.n - 1)] a.n with
    | error e => rw [hm] at hb; cases hb
    | ok m =>
      rw [hm] at hb
      simp only [bind, Except.bind] at hb
      split at hb
      · cases hm' : mapChannels [(a.n - 1, i)] a.n with
        | error e => rw [hm'] at hb; cases hb
        | ok m' =>
          rw [hm'] at hb
          exact feedbackLast_H (hser (hser (hpc m) h) (hpc m')) hb
      · exact feedbackLast_H (hser (hpc m) h) hb
  · split at hb
    · cases hm' : mapChannels [(a.n - 1, i)] a.n with
      | error e => rw [hm'] at hb; cases hb
      | ok m' =>
        rw [hm'] at hb
        exact feedbackLast_H (hser h (hpc m')) hb
    · exact feedbackLast_H h hb

/-- C15: a feedback that succeeds on a physical triple yields a physical triple with one channel less. -/
theorem C15_feedback {a b : SLH A} {o i : ℕ} (ho : o < a.n) (hi : i < a.n) (ha : Physical a)
    (hb : feedback a o i = .ok b) : Physical b ∧ b.n = a.n - 1 := by
  by_cases hw : WellPosed a o i
  · obtain ⟨c, hc, hx⟩ := hw
    obtain ⟨b', e, h1, h2, h3, h4⟩ := feedback_ok ha.1 ho hi hc hx
    rw [e] at hb; injection hb with hb; subst hb
    exact ⟨⟨h3, h4 ha.2.1, feedback_H ha.2.2 e⟩, h1⟩
  · rw [feedback_err ha.1 ho hi hw] at hb; cases hb

/-! ### C16 -/

/-- C16: feedback succeeds exactly for scalar well-posed loops and raises `AlgebraError` otherwise. -/
theorem C16_error_iff {a : SLH A} {o i : ℕ} (ha : Iso a) (ho : o < a.n) (hi : i < a.n) :
    ((∃ b, feedback a o i = .ok b) ↔ WellPosed a o i) ∧
    (¬ WellPosed a o i → feedback a o i = .error .algebraError) := by
  refine ⟨⟨?_, ?_⟩, feedback_err ha ho hi⟩
  · rintro ⟨b, hb⟩
    by_contra hw
    rw [feedback_err ha ho hi hw] at hb; cases hb
  · rintro ⟨c, hc, hx⟩
    obtain ⟨b', e, -⟩ := feedback_ok ha ho hi hc hx
    exact ⟨b', e⟩

theorem loopInput_up (i : ℕ) (w : A) (u : ℕ → A) (l : ℕ) : loopInput i w u (Aff.up i l) = u l := by
  unfold loopInput Aff.up
  split
  · rename_i h; rw [if_neg (by omega)]
  · rename_i h; rw [if_neg (by omega), if_neg (by omega)]; rfl

theorem loopInput_self (i : ℕ) (w : A) (u : ℕ → A) : loopInput i w u i = w := if_pos rfl

theorem sum_loop {n i : ℕ} (hi : i < n) (f : ℕ → A) (w : A) (u : ℕ → A) :
    ∑ j ∈ range n, f j * loopInput i w u j = ∑ l ∈ range (n - 1), f (Aff.up i l) * u l + f i * w := by
  rw [Aff.sum_up hi]
  congr 1
  · apply Finset.sum_congr rfl; intro l _; rw [loopInput_up]
  · rw [loopInput_self]

/-- C16: Let `b = a.feedback(out_port=o, in_port=i)`. For all signals `u` on the remaining inputs, the equation
"signal on the loop = output `o`" has exactly one solution `w`, and with it the remaining outputs of `a` are the outputs
of `b`; also the drift row (noise coefficients and `-iH - ½L†L`) of `b` is that of `a` with the loop closed, which
determines the Hamiltonian. -/
theorem C16_io_elimination {a b : SLH A} {o i : ℕ} (ha : Iso a) (ho : o < a.n) (hi : i < a.n)
    (hb : feedback a o i = .ok b) (u : ℕ → A) :
    ∃ w, output a (loopInput i w u) o = w ∧ (∀ w', output a (loopInput i w' u) o = w' → w' = w) ∧
      (∀ k, k < a.n - 1 → output a (loopInput i w u) (skip o k) = output b u k) ∧
      driftOutput a (loopInput i w u) = driftOutput b u := by
  by_cases hw : WellPosed a o i
  swap
  · rw [feedback_err ha ho hi hw] at hb; cases hb
  obtain ⟨c, hc, hx⟩ := hw
  obtain ⟨b', e, h1, h2, -, -⟩ := feedback_ok ha ho hi hc hx
  rw [e] at hb; injection hb with hb; subst hb
  obtain ⟨hi1, hi2⟩ := algebraMap_inv_mul hc hx
  set x := algebraMap ℂ A c⁻¹
  set v := ∑ l ∈ range (a.n - 1), a.S o (Aff.up i l) * u l + a.L o with hv
  have hout : ∀ w k, output a (loopInput i w u) k =
      ∑ l ∈ range (a.n - 1), a.S k (Aff.up i l) * u l + a.S k i * w + a.L k := by
    intro w k; rw [output, sum_loop hi (fun j => a.S k j)]
  have hbS : ∀ k l, k < a.n - 1 → l < a.n - 1 → b'.S k l = a.S (Aff.up o k) (Aff.up i l) + a.S (Aff.up o k) i * x * a.S o (Aff.up i l) := by
    intro k l hk hl
    rw [← toAff_S b', h2, Aff.fb_S (by simpa using hk) (by simpa using hl)]; simp only [toAff_S]
  have hbL : ∀ k, k < a.n - 1 → b'.L k = a.L (Aff.up o k) + a.S (Aff.up o k) i * x * a.L o := by
    intro k hk
    rw [← toAff_L b', h2, Aff.fb_L (by simpa using hk)]; simp only [toAff_S, toAff_L]
  refine ⟨x * v, ?_, ?_, ?_, ?_⟩
  · rw [hout]
    have e1 : (1 - a.S o i) * (x * v) = v := by rw [← mul_assoc, hi1, one_mul]
    have e2 : a.S o i * (x * v) = x * v - v := by
      have : a.S o i * (x * v) = x * v - (1 - a.S o i) * (x * v) := by noncomm_ring
      rw [this, e1]
    rw [e2, hv]; abel
  · intro w' hw'
    rw [hout] at hw'
    have : (1 - a.S o i) * w' = v := by
      rw [hv, sub_mul, one_mul]
      conv_lhs => rw [← hw']
      rw [hw']
      nth_rewrite 1 [← hw']
      abel
    rw [← this, ← mul_assoc, hi2, one_mul]
  · intro k hk
    rw [hout, skip_eq_up, output, h1]
    have e1 : ∀ l ∈ range (a.n - 1), b'.S k l * u l =
        a.S (Aff.up o k) (Aff.up i l) * u l + a.S (Aff.up o k) i * x * (a.S o (Aff.up i l) * u l) := by
      intro l hl
      rw [hbS k l hk (Finset.mem_range.mp hl)]; noncomm_ring
    rw [Finset.sum_congr rfl e1, Finset.sum_add_distrib, ← Finset.mul_sum, hbL k hk, hv]
    noncomm_ring
  · have hR : ∀ j, noiseCoeff a j = (toAff a).R j := by intro j; rw [toAff_R']; rfl
    have hR' : ∀ j, noiseCoeff b' j = (toAff b').R j := by intro j; rw [toAff_R']; rfl
    have hK : drift a = (toAff a).K := rfl
    have hK' : drift b' = (toAff b').K := rfl
    unfold driftOutput
    simp only [hR, hR', hK, hK', h2, h1]
    rw [sum_loop hi (fun j => (toAff a).R j), Aff.fb_K]
    have e1 : ∀ l ∈ range (a.n - 1), (Aff.fb o i x (toAff a)).R l * u l =
        (toAff a).R (Aff.up i l) * u l + (toAff a).R i * x * (a.S o (Aff.up i l) * u l) := by
      intro l hl
      rw [Aff.fb_R (by simpa using hl)]; simp only [toAff_S]; noncomm_ring
    rw [Finset.sum_congr rfl e1, Finset.sum_add_distrib, ← Finset.mul_sum, hv, toAff_L]
    noncomm_ring

/-- C16: a component `m` acting only on the channels other than the loop channel (here: the first `n-1` of `n`) can be
applied before or after closing the loop on the last channel. -/
theorem C16_naturality {a m b : SLH A} (ha : Unitary a) (hm : Unitary m) (hn : a.n = m.n + 1)
    (hb : feedback a m.n m.n = .ok b) :
    feedback (series (concat m (passThrough 1)) a) m.n m.n = .ok (series m b) ∧
    feedback (series a (concat m (passThrough 1))) m.n m.n = .ok (series b m) := by
  have hw := (C16_error_iff ha.1 (o := m.n) (i := m.n) (by omega) (by omega)).1.mp ⟨b, hb⟩
  obtain ⟨c, hc, hx⟩ := hw
  obtain ⟨b', e, h1, h2, hbI, -⟩ := feedback_ok ha.1 (by omega) (by omega) hc hx
  rw [e] at hb; injection hb with hb; subst hb
  have hone : (passThrough 1 : SLH A).n = 1 := rfl
  have hmn : (concat m (passThrough 1)).n = a.n := by simp [hone, hn]
  have hI : Iso (concat m (passThrough 1) : SLH A) := Iso.concat hm.1 (passThrough_unitary 1).1
  have th : Aff.Thread m.n m.n (toAff (concat m (passThrough 1))) (toAff m) := by
    have := Aff.Thread.concat_left (Aff.thread_one (A := A) (n := 1) (o := 0) (by omega)) (toAff m)
    rw [Aff.concat_zero] at this
    rw [toAff_concat, toAff_passThrough]
    simpa using this
  constructor
  · have t := Aff.thread_left (C := toAff a) (x := algebraMap ℂ A c⁻¹) th (by simpa using hmn) (j := m.n) (by simp; omega)
    have eA := toAff_series hmn hI (b := a)
    obtain ⟨b2, e2, -, g2, -, -⟩ := feedback_ok (o := m.n) (i := m.n) (Iso.series hmn hI ha.1) (by simp [hone]) (by simp [hone]) hc (by
      rw [← toAff_S, eA, t.1, toAff_S, hx])
    rw [e2]
    congr 1
    apply toAff_inj
    rw [g2, eA, t.2, toAff_series (by omega) hm.1, h2]
  · have t := Aff.thread_right (C := toAff a) (x := algebraMap ℂ A c⁻¹) th (by simpa using hmn) (j := m.n) (by simp; omega)
    have eA := toAff_series hmn.symm ha.1
    obtain ⟨b2, e2, -, g2, -, -⟩ := feedback_ok (o := m.n) (i := m.n) (Iso.series hmn.symm ha.1 hI) (by simp; omega) (by simp; omega) hc (by
      rw [← toAff_S, eA, t.1, toAff_S, hx])
    rw [e2]
    congr 1
    apply toAff_inj
    rw [g2, eA, t.2, toAff_series (by omega) hbI, h2]

theorem toAff_inverse_series {a : SLH A} (ha : Unitary a) :
    Aff.series (toAff a) (toAff (inverse a)) = Aff.one a.n ∧ Aff.series (toAff (inverse a)) (toAff a) = Aff.one a.n := by
  have h := C13_inverse ha
  constructor
  · rw [← toAff_series (by simp) ha.1, h.1, toAff_passThrough]
  · rw [← toAff_series (by simp) (Iso.inverse ha.2), h.2, toAff_passThrough]

theorem WellPosed.inverse {a : SLH A} {o i : ℕ} (ho : o < a.n) (hi : i < a.n) (h : WellPosed a o i) :
    WellPosed (inverse a) i o := by
  obtain ⟨c, hc, hx⟩ := h
  refine ⟨star c, by simpa using hc, ?_⟩
  rw [SLH.inverse, mk'_S hi ho, ← star_one, ← star_sub, ← hx, algebraMap_star_comm]

/-- C16: feedback commutes with the series inverse (the ports swap their roles). -/
theorem C16_inverse {a b : SLH A} {o i : ℕ} (ha : Unitary a) (ho : o < a.n) (hi : i < a.n)
    (hb : feedback a o i = .ok b) : feedback (inverse a) i o = .ok (inverse b) := by
  have hw := (C16_error_iff ha.1 ho hi).1.mp ⟨b, hb⟩
  obtain ⟨c', hc', hx'⟩ := hw.inverse ho hi
  obtain ⟨c, hc, hx⟩ := hw
  obtain ⟨b1, e, h1, h2, hbI, hbC⟩ := feedback_ok ha.1 ho hi hc hx
  rw [e] at hb; injection hb with hb; subst hb
  have hia : Iso (inverse a) := Iso.inverse ha.2
  obtain ⟨b2, e2, g1, g2, -, -⟩ := feedback_ok hia (by simpa using hi) (by simpa using ho) hc' hx'
  rw [e2]
  congr 1
  apply toAff_inj
  obtain ⟨i1, i2⟩ := algebraMap_inv_mul hc hx
  obtain ⟨j1, j2⟩ := algebraMap_inv_mul hc' hx'
  obtain ⟨k1, k2⟩ := toAff_inverse_series (a := b1) ⟨hbI, hbC ha.2⟩
  have hmul := Aff.fb_mul_fb (a := toAff (inverse a)) (b := toAff a) (o := i) (i := o) (by simp) (by simpa using hi) (by simpa using ho)
    (by rw [(toAff_inverse_series ha).2]; rfl) (by rw [toAff_S]; exact j1) (by rw [toAff_S]; exact j2)
    (by rw [toAff_S]; exact i1) (by rw [toAff_S]; exact i2)
  rw [← g2, ← h2] at hmul
  apply Aff.inv_unique (b := toAff b1)
  · simp [g1, h1]
  · simp
  · rw [hmul]; simp [g1]
  · rw [k1]; simp

/-! ### SLH parts of C08 and C10 -/

/-- C08: the SLH triple (in particular the scattering matrix) of `a << b` is the series product of the triples. -/
theorem C08_series_slh {a b : PC} (ha : Reachable a) (hb : Reachable b) (h : a.cdim = b.cdim) :
    ∃ c, CPerm.series a b = .ok c ∧ (ofPC c : SLH A) = series (ofPC a) (ofPC b) := by
  obtain ⟨c, e, r, t⟩ := series_ok ha hb h
  have hl : a.tuple.length = b.tuple.length := by rw [← ha.cdim, ← hb.cdim, h]
  refine ⟨c, e, ?_⟩
  apply toAff_inj
  change toAff (ofPerm c.tuple) = toAff (series (ofPerm a.tuple) (ofPerm b.tuple))
  rw [toAff_ofPerm r.valid, t, Aff.perm_comp ha.valid hb.valid hl, toAff_series (by simpa using hl) (Iso.ofPerm ha.valid),
    toAff_ofPerm ha.valid, toAff_ofPerm hb.valid]

/-- C08: the permutation matrix of `a << b` is the matrix product. -/
theorem C08_matrix_product {a b : PC} (ha : Reachable a) (hb : Reachable b) (h : a.cdim = b.cdim) :
    ∃ c, CPerm.series a b = .ok c ∧ ∀ i j, i < a.cdim → j < a.cdim →
      (ofPC c : SLH A).S i j = ∑ k ∈ range a.cdim, (ofPC a : SLH A).S i k * (ofPC b : SLH A).S k j := by
  obtain ⟨c, e, h2⟩ := C08_series_slh (A := A) ha hb h
  refine ⟨c, e, ?_⟩
  intro i j hi hj
  have : (ofPC a : SLH A).n = a.cdim := by rw [ha.cdim]; rfl
  rw [h2, series, mk'_S (by omega) (by omega), this]

/-- C08: the triple of the inverse circuit is the inverse triple. -/
theorem C08_inverse_slh {a : PC} (ha : Reachable a) :
    ∃ b, seriesInverse a = .ok b ∧ (ofPC b : SLH A) = inverse (ofPC a) := by
  obtain ⟨b, e, r, t⟩ := seriesInverse_ok ha
  have va := ha.valid
  refine ⟨b, e, ?_⟩
  rw [ofPC, t, ofPC]
  refine ext' (by simp) ?_ ?_ ?_
  · intro i j hi hj
    simp only [ofPerm_n, inv_length] at hi hj
    rw [ofPerm_S (inv_valid va), inverse, mk'_S (by simpa using hi) (by simpa using hj), ofPerm_S va]
    have := (C02_invert_pointwise ((valid_iff _).mp va) (invert_ok va)) i j
    by_cases h : a.tuple[i]? = some j
    · rw [if_pos h, if_pos (this.mp h), star_one]
    · rw [if_neg h, if_neg (fun hc => h (this.mpr hc)), star_zero]
  · intro i hi
    simp only [ofPerm_n, inv_length] at hi
    rw [inverse, mk'_L (by simpa using hi)]
    simp [ofPerm, mk']
  · change (0 : A) = - 0
    simp

/-- C10: for a well-posed loop, the SLH triple of the permutation feedback is the SLH feedback of the permutation's
triple. -/
theorem C10_feedback_slh {p : List Nat} {o i : Nat} (hp : Reachable (.perm p)) (ho : o < p.length) (hi : i < p.length)
    (hne : p[i]? ≠ some o) :
    ∃ c, CPerm.feedback p o i = .ok c ∧ feedback (ofPerm p : SLH A) o i = .ok (ofPC c) := by
  have hv : Valid p := hp.valid
  obtain ⟨c, e, r, d, h⟩ := CPerm.feedback_ok hp ho hi
  refine ⟨c, e, ?_⟩
  have hx : algebraMap ℂ A 1 = 1 - (ofPerm p : SLH A).S o i := by
    rw [ofPerm_S hv, if_neg hne]; simp
  obtain ⟨b, e2, h1, h2, -, -⟩ := feedback_ok (Iso.ofPerm hv) (by simpa using ho) (by simpa using hi) one_ne_zero hx
  rw [e2]
  congr 1
  apply toAff_inj
  rw [h2, toAff_ofPerm hv, ofPC, toAff_ofPerm r.valid, inv_one, map_one]
  exact Aff.fb_perm hv r.valid (by rw [← r.cdim, d]) hi hne h

/-- C10: on an isolated loop (`p(i) = o`) the two disagree: the permutation circuit drops the loop, the SLH feedback raises
`AlgebraError`. -/
theorem C10_isolated_loop [Nontrivial A] {p : List Nat} {o i : Nat} (hp : Reachable (.perm p)) (ho : o < p.length) (hi : i < p.length)
    (heq : p[i]? = some o) :
    (∃ c, CPerm.feedback p o i = .ok c) ∧ feedback (ofPerm p : SLH A) o i = .error .algebraError := by
  have hv : Valid p := hp.valid
  obtain ⟨c, e, -⟩ := CPerm.feedback_ok hp ho hi
  refine ⟨⟨c, e⟩, feedback_err (Iso.ofPerm hv) (by simpa using ho) (by simpa using hi) ?_⟩
  rintro ⟨c, hc, hx⟩
  rw [ofPerm_S hv, if_pos heq, sub_self] at hx
  have h1 : algebraMap ℂ A c⁻¹ * algebraMap ℂ A c = 1 := by rw [← map_mul, inv_mul_cancel₀ hc, map_one]
  rw [hx, mul_zero] at h1
  exact zero_ne_one h1

/-! ### The hypotheses are satisfiable: a beam splitter -/

/-- a two-channel triple over `ℂ` with `S = [[0, i], [i, 0]]`, `L = (1, 2i)`, `H = 3` -/
noncomputable def sample : SLH ℂ :=
  mk' 2 (fun i j => if i = j then 0 else Complex.I) (fun i => if i = 0 then 1 else 2 * Complex.I) 3

theorem sample_unitary : Unitary sample := by
  constructor <;> intro k l hk hl <;>
  · have hk : k < 2 := hk
    have hl : l < 2 := hl
    have hn : sample.n = 2 := rfl
    rw [hn, Finset.sum_range_succ, Finset.sum_range_succ, Finset.sum_range_zero, zero_add]
    simp only [sample]
    rw [mk'_S (by omega) (by omega), mk'_S (by omega) (by omega), mk'_S (by omega) (by omega), mk'_S (by omega) (by omega)]
    interval_cases k <;> interval_cases l <;> simp

example : Physical sample := ⟨sample_unitary.1, sample_unitary.2, by simp [sample, mk']⟩
example : WellPosed sample 0 0 := ⟨1, one_ne_zero, by simp [sample, mk']⟩
example : WellPosed sample 0 1 := ⟨1 - Complex.I, by
  intro h
  have := congrArg Complex.re h
  simp at this, by simp [sample, mk']⟩
example : ∃ b, feedback sample 0 0 = .ok b :=
  (C16_error_iff sample_unitary.1 (by simp [sample, mk']) (by simp [sample, mk'])).1.mpr ⟨1, one_ne_zero, by simp [sample, mk']⟩

end QNET.SLH
