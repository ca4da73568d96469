import Verif.SLH.ToAff
import Verif.SLH.AffPerm

/-! # Feedback of SLH triples -/

namespace QNET.SLH

open Finset QNET.Perm QNET.CPerm

variable {A : Type} [Ring A] [StarRing A] [Algebra ℂ A] [StarModule ℂ A]

theorem star_sum' {n : ℕ} (f : ℕ → A) : star (∑ i ∈ range n, f i) = ∑ i ∈ range n, star (f i) := star_sum _ _

/-- the feedback formula for the last port, with an arbitrary inverse `x` -/
noncomputable def fbLast (a : SLH A) (x : A) : SLH A :=
  mk' (a.n - 1) (fun i j => a.S i j + a.S i (a.n - 1) * x * a.S (a.n - 1) j)
    (fun i => a.L i + a.S i (a.n - 1) * x * a.L (a.n - 1))
    (a.H + imAdjoint ((∑ i ∈ range a.n, star (a.L i) * a.S i (a.n - 1)) * x * a.L (a.n - 1)))

theorem toAff_fbLast {a : SLH A} {x : A} (hn : 0 < a.n) (h : Iso a) (hx : (1 - a.S (a.n - 1) (a.n - 1)) * x = 1) :
    toAff (fbLast a x) = Aff.fb (a.n - 1) (a.n - 1) x (toAff a) := by
  obtain ⟨N, hN⟩ : ∃ N, a.n = N + 1 := ⟨a.n - 1, by omega⟩
  have hN1 : a.n - 1 = N := by omega
  rw [hN1] at hx ⊢
  set s := a.S N N with hs
  have hup : ∀ k, k < N → Aff.up N k = k := fun k hk => by unfold Aff.up; rw [if_pos hk]
  have hsx : s * x = x - 1 := by
    have : s * x = x - (1 - s) * x := by noncomm_ring
    rw [this, hx]
  have hxs : star x * star s = star x - 1 := by rw [← star_mul, hsx, star_sub, star_one]
  have hQ : ∑ i ∈ range N, star (a.S i N) * a.S i N = 1 - star s * s := by
    have := h N N (by omega) (by omega)
    rw [hN, Finset.sum_range_succ, if_pos rfl] at this
    rw [← this]; abel
  have hP : ∀ j, j < N → ∑ i ∈ range N, star (a.S i N) * a.S i j = - (star s * a.S N j) := by
    intro j hj
    have := h N j (by omega) (by omega)
    rw [hN, Finset.sum_range_succ, if_neg (by omega)] at this
    exact eq_neg_of_add_eq_zero_left this
  have hS' : ∀ i j, i < N → j < N → (fbLast a x).S i j = a.S i j + a.S i N * x * a.S N j := by
    intro i j hi hj; rw [fbLast, mk'_S (by omega) (by omega), hN1]
  have hL' : ∀ i, i < N → (fbLast a x).L i = a.L i + a.S i N * x * a.L N := by
    intro i hi; rw [fbLast, mk'_L (by omega), hN1]
  have hn' : (fbLast a x).n = N := hN1
  have hxQ : star x * (1 - star s * s) * x = x + star x - 1 := by
    have : star x * (1 - star s * s) * x = star x * x - (star x * star s) * (s * x) := by noncomm_ring
    rw [this, hxs, hsx]; noncomm_ring
  refine Aff.ext' (by simp [hn', hN]) ?_ ?_ ?_ ?_
  · intro i j hi hj
    simp only [toAff_n, hn'] at hi hj
    rw [toAff_S, hS' i j hi hj, Aff.fb_S (by simp; omega) (by simp; omega), hup i hi, hup j hj]
    simp only [toAff_S]
  · intro i hi
    simp only [toAff_n, hn'] at hi
    rw [toAff_L, hL' i hi, Aff.fb_L (by simp; omega), hup i hi]
    simp only [toAff_S, toAff_L]
  · intro j hj
    simp only [toAff_n, hn'] at hj
    rw [toAff_R', Aff.fb_R (by simp; omega), hup j hj]
    simp only [toAff_R', toAff_S, hn', hN, Finset.sum_range_succ]
    have e : ∀ i ∈ range N, star ((fbLast a x).L i) * (fbLast a x).S i j =
        star (a.L i) * a.S i j + (star (a.L i) * a.S i N) * (x * a.S N j) +
        star (a.L N) * star x * (star (a.S i N) * a.S i j) +
        star (a.L N) * star x * (star (a.S i N) * a.S i N) * (x * a.S N j) := by
      intro i hi
      have hi := Finset.mem_range.mp hi
      rw [hL' i hi, hS' i j hi hj, star_add, star_mul, star_mul]; noncomm_ring
    rw [Finset.sum_congr rfl e]
    simp only [Finset.sum_add_distrib, ← Finset.sum_mul, ← Finset.mul_sum]
    rw [hP j hj, hQ]
    set T := ∑ i ∈ range N, star (a.L i) * a.S i j
    set U := ∑ i ∈ range N, star (a.L i) * a.S i N
    have e1 : star (a.L N) * star x * -(star s * a.S N j) = - (star (a.L N) * (star x * star s) * a.S N j) := by
      noncomm_ring
    have e2 : star (a.L N) * star x * (1 - star s * s) * (x * a.S N j) =
        star (a.L N) * (star x * (1 - star s * s) * x) * a.S N j := by noncomm_ring
    have e3 : -(U + star (a.L N) * s) * x * a.S N j = - (U * x * a.S N j) - star (a.L N) * (s * x) * a.S N j := by
      noncomm_ring
    rw [e1, e2, e3, hxs, hxQ, hsx]
    noncomm_ring
  · rw [toAff_K, Aff.fb_K, toAff_K]
    simp only [toAff_R', toAff_L, hn']
    have e : ∀ i ∈ range N, star ((fbLast a x).L i) * (fbLast a x).L i =
        star (a.L i) * a.L i + (star (a.L i) * a.S i N) * (x * a.L N) +
        star (star (a.L i) * a.S i N * (x * a.L N)) +
        star (a.L N) * star x * (star (a.S i N) * a.S i N) * (x * a.L N) := by
      intro i hi
      have hi := Finset.mem_range.mp hi
      rw [hL' i hi]
      simp only [star_add, star_mul, star_star]; noncomm_ring
    rw [Finset.sum_congr rfl e]
    simp only [Finset.sum_add_distrib, ← Finset.sum_mul, ← Finset.mul_sum, ← star_sum', hQ]
    have hH : (fbLast a x).H = a.H + imAdjoint ((∑ i ∈ range a.n, star (a.L i) * a.S i N) * x * a.L N) := by
      rw [fbLast, mk', hN1]
    rw [hH, smul_add, I_imAdjoint]
    simp only [hN, Finset.sum_range_succ]
    rw [← hs]
    set T := ∑ i ∈ range N, star (a.L i) * a.L i
    set U := ∑ i ∈ range N, star (a.L i) * a.S i N
    have e2 : star (a.L N) * star x * (1 - star s * s) * (x * a.L N) =
        star (a.L N) * (star x * (1 - star s * s) * x) * a.L N := by noncomm_ring
    have e3 : (U + star (a.L N) * s) * x * a.L N = U * (x * a.L N) + star (a.L N) * (s * x) * a.L N := by
      noncomm_ring
    have e4 : -(U + star (a.L N) * s) * x * a.L N = - (U * (x * a.L N) + star (a.L N) * (s * x) * a.L N) := by
      noncomm_ring
    rw [e2, e4, e3, hxQ, hsx]
    simp only [star_add, star_mul, star_sub, star_one, star_star]
    have e5 : star (a.L N) * (x + star x - 1) * a.L N =
        star (a.L N) * x * a.L N + star (a.L N) * star x * a.L N - star (a.L N) * a.L N := by noncomm_ring
    have e6 : star (a.L N) * (x - 1) * a.L N = star (a.L N) * x * a.L N - star (a.L N) * a.L N := by noncomm_ring
    have e7 : star (a.L N) * ((star x - 1) * a.L N) = star (a.L N) * star x * a.L N - star (a.L N) * a.L N := by
      noncomm_ring
    have e8 : star (a.L N) * star x * star U = star (a.L N) * (star x * star U) := by noncomm_ring
    simp only [e5, e6, e7, e8]
    have e9 : star (a.L N) * star x * star U = star (a.L N) * (star x * star U) := by noncomm_ring
    try simp only [e9]
    module

theorem Iso.fbLast {a : SLH A} {x : A} (hn : 0 < a.n) (h : Iso a) (hx : (1 - a.S (a.n - 1) (a.n - 1)) * x = 1) :
    Iso (fbLast a x) := by
  obtain ⟨N, hN⟩ : ∃ N, a.n = N + 1 := ⟨a.n - 1, by omega⟩
  have hN1 : a.n - 1 = N := by omega
  rw [hN1] at hx
  intro k l hk hl
  have hn' : (SLH.fbLast a x).n = N := hN1
  rw [hn'] at hk hl ⊢
  set s := a.S N N with hs
  have hsx : s * x = x - 1 := by
    have : s * x = x - (1 - s) * x := by noncomm_ring
    rw [this, hx]
  have hxs : star x * star s = star x - 1 := by rw [← star_mul, hsx, star_sub, star_one]
  have hS' : ∀ i j, i < N → j < N → (SLH.fbLast a x).S i j = a.S i j + a.S i N * x * a.S N j := by
    intro i j hi hj; rw [SLH.fbLast, mk'_S (by omega) (by omega), hN1]
  have hG : ∀ k l, k < N + 1 → l < N + 1 → ∑ i ∈ range N, star (a.S i k) * a.S i l =
      (if k = l then 1 else 0) - star (a.S N k) * a.S N l := by
    intro k l hk hl
    have := h k l (by omega) (by omega)
    rw [hN, Finset.sum_range_succ] at this
    rw [← this]; abel
  have hxQ : star x * (1 - star s * s) * x = x + star x - 1 := by
    have : star x * (1 - star s * s) * x = star x * x - (star x * star s) * (s * x) := by noncomm_ring
    rw [this, hxs, hsx]; noncomm_ring
  have e : ∀ i ∈ range N, star ((SLH.fbLast a x).S i k) * (SLH.fbLast a x).S i l =
      star (a.S i k) * a.S i l + (star (a.S i k) * a.S i N) * (x * a.S N l) +
      star (a.S N k) * star x * (star (a.S i N) * a.S i l) +
      star (a.S N k) * star x * (star (a.S i N) * a.S i N) * (x * a.S N l) := by
    intro i hi
    have hi := Finset.mem_range.mp hi
    rw [hS' i k hi hk, hS' i l hi hl, star_add, star_mul, star_mul]; noncomm_ring
  rw [Finset.sum_congr rfl e]
  simp only [Finset.sum_add_distrib, ← Finset.sum_mul, ← Finset.mul_sum]
  rw [hG k l (by omega) (by omega), hG k N (by omega) (by omega), hG N l (by omega) (by omega), hG N N (by omega) (by omega),
    if_neg (c := k = N) (by omega), if_neg (c := N = l) (by omega), if_pos (c := N = N) rfl, ← hs]
  have e1 : star (a.S N k) * star x * (0 - star s * a.S N l) = - (star (a.S N k) * (star x * star s) * a.S N l) := by
    noncomm_ring
  have e2 : star (a.S N k) * star x * (1 - star s * s) * (x * a.S N l) =
      star (a.S N k) * (star x * (1 - star s * s) * x) * a.S N l := by noncomm_ring
  have e3 : (0 - star (a.S N k) * s) * (x * a.S N l) = - (star (a.S N k) * (s * x) * a.S N l) := by noncomm_ring
  rw [e1, e2, e3, hxs, hxQ, hsx]
  noncomm_ring

theorem CoIso.fbLast {a : SLH A} {x : A} (hn : 0 < a.n) (h : CoIso a) (hx : x * (1 - a.S (a.n - 1) (a.n - 1)) = 1) :
    CoIso (fbLast a x) := by
  -- apply the isometry statement to the adjoint
  have h1 := Iso.fbLast (a := SLH.inverse a) (x := star x) hn (Iso.inverse h) (by
    rw [inverse_n, SLH.inverse, mk'_S (by omega) (by omega), ← star_one, ← star_sub, ← star_mul, hx, star_one])
  intro k l hk hl
  rw [← h1 k l hk hl]
  apply Finset.sum_congr rfl
  intro i hi
  have hi := Finset.mem_range.mp hi
  have hn' : (SLH.fbLast a x).n = a.n - 1 := rfl
  rw [hn'] at hk hl
  have hi : i < a.n - 1 := hi
  have e : ∀ m, m < a.n - 1 → (SLH.fbLast (SLH.inverse a) (star x)).S i m = star ((SLH.fbLast a x).S m i) := by
    intro m hm
    rw [SLH.fbLast, mk'_S (n := (SLH.inverse a).n - 1) hi hm, SLH.fbLast, mk'_S (n := a.n - 1) hm hi]
    simp only [inverse_n]
    rw [SLH.inverse, mk'_S (by omega) (by omega), mk'_S (by omega) (by omega), mk'_S (by omega) (by omega)]
    simp only [star_add, star_mul, mul_assoc]
  rw [e k hk, e l hl, star_star]

theorem algebraMap_inv_mul {c : ℂ} {y : A} (hc : c ≠ 0) (h : algebraMap ℂ A c = y) :
    y * algebraMap ℂ A c⁻¹ = 1 ∧ algebraMap ℂ A c⁻¹ * y = 1 := by
  subst h
  rw [← map_mul, ← map_mul, mul_inv_cancel₀ hc, inv_mul_cancel₀ hc, map_one]
  exact ⟨rfl, rfl⟩

theorem inv_uniq {y u v : A} (h1 : y * u = 1) (h2 : v * y = 1) : u = v := by
  calc u = (v * y) * u := by rw [h2, one_mul]
    _ = v := by rw [mul_assoc, h1, mul_one]

theorem feedbackLast_eq {a : SLH A} {c : ℂ} (hc : c ≠ 0) (h : algebraMap ℂ A c = 1 - a.S (a.n - 1) (a.n - 1)) :
    feedbackLast a = .ok (fbLast a (algebraMap ℂ A c⁻¹)) := by
  have hex : ∃ c : ℂ, c ≠ 0 ∧ algebraMap ℂ A c = 1 - a.S (a.n - 1) (a.n - 1) := ⟨c, hc, h⟩
  unfold feedbackLast
  simp only
  rw [dif_pos hex]
  have : algebraMap ℂ A (hex.choose)⁻¹ = algebraMap ℂ A c⁻¹ :=
    inv_uniq (algebraMap_inv_mul hex.choose_spec.1 hex.choose_spec.2).1 (algebraMap_inv_mul hc h).2
  rw [this]; rfl

theorem feedbackLast_err {a : SLH A} (h : ¬ WellPosed a (a.n - 1) (a.n - 1)) :
    feedbackLast a = .error .algebraError := by
  unfold feedbackLast
  simp only
  unfold WellPosed at h
  rw [dif_neg h]

/-! ## Permutations -/

theorem toAff_ofPerm {p : List Nat} (hp : Valid p) : toAff (ofPerm p : SLH A) = Aff.perm p := by
  have hL : ∀ i, (ofPerm p : SLH A).L i = 0 := by intro i; simp [ofPerm, mk']
  refine Aff.ext' (by rfl) ?_ ?_ ?_ ?_
  · intro i j hi hj
    rw [toAff_S, Aff.perm_S hp, ofPerm, mk'_S (n := p.length) hi hj]
  · intro i _; rw [toAff_L, hL]; simp
  · intro i _; rw [toAff_R']; simp [hL]
  · rw [toAff_K]
    simp only [hL]
    have : (ofPerm p : SLH A).H = 0 := rfl
    simp [this]

theorem ofPerm_S {p : List Nat} (hp : Valid p) (k j : ℕ) : (ofPerm p : SLH A).S k j = if p[j]? = some k then 1 else 0 := by
  rw [← toAff_S, toAff_ofPerm hp, Aff.perm_S hp]

theorem Iso.ofPerm {p : List Nat} (hp : Valid p) : Iso (ofPerm p : SLH A) := by
  intro k l hk hl
  simp only [ofPerm_n] at hk hl ⊢
  have e : ∀ i ∈ range p.length, star ((SLH.ofPerm p : SLH A).S i k) * (SLH.ofPerm p : SLH A).S i l =
      star ((SLH.ofPerm p : SLH A).S i k) * (Aff.perm p : Aff A).S i l := by
    intro i _; rw [ofPerm_S hp i l, Aff.perm_S hp]
  rw [Finset.sum_congr rfl e, Aff.sum_perm_right hp _ (List.getElem?_eq_getElem hl), ofPerm_S hp,
    List.getElem?_eq_getElem hk]
  by_cases h : k = l
  · subst h; simp
  · rw [if_neg h, if_neg, star_zero]
    intro hc; injection hc with hc
    exact h ((hp.nodup.getElem_inj_iff).mp hc)

theorem CoIso.ofPerm {p : List Nat} (hp : Valid p) : CoIso (ofPerm p : SLH A) := by
  intro k l hk hl
  simp only [ofPerm_n] at hk hl ⊢
  obtain ⟨j, hj, e⟩ := Aff.Valid.exists_preimage hp hk
  have e' : ∀ i ∈ range p.length, (SLH.ofPerm p : SLH A).S k i * star ((SLH.ofPerm p : SLH A).S l i) =
      (Aff.perm p : Aff A).S k i * star ((SLH.ofPerm p : SLH A).S l i) := by
    intro i _; rw [ofPerm_S hp k i, Aff.perm_S hp]
  rw [Finset.sum_congr rfl e', Aff.sum_perm_left hp _ e, ofPerm_S hp, e]
  by_cases h : k = l
  · subst h; simp
  · rw [if_neg h, if_neg (by simpa using h), star_zero]

/-! ## Feedback for arbitrary ports -/

theorem mapChannels_thread {a b n : ℕ} (ha : a < n) (hb : b < n) :
    ∃ c, mapChannels [(a, b)] n = .ok c ∧ c.tuple.length = n ∧ Valid c.tuple ∧
      Aff.Thread b a (Aff.perm c.tuple : Aff A) (Aff.one (n - 1)) := by
  obtain ⟨c, e, r, d, l, h1, h2⟩ := mapChannels_single ha hb
  refine ⟨c, e, l, r.valid, ?_⟩
  rw [← Aff.perm_range]
  apply Aff.thread_perm r.valid (valid_range _) (by simp [l]) h1
  intro l z hz
  obtain ⟨h3, h4⟩ := List.getElem?_eq_some_iff.mp hz
  simp only [List.length_range, List.getElem_range] at h3 h4
  subst h4
  exact h2 l h3

/-- `SLH.feedback` realises the affine feedback. -/
theorem feedback_ok {a : SLH A} {o i : ℕ} {c : ℂ} (h : Iso a) (ho : o < a.n) (hi : i < a.n) (hc : c ≠ 0)
    (hx : algebraMap ℂ A c = 1 - a.S o i) :
    ∃ b, feedback a o i = .ok b ∧ b.n = a.n - 1 ∧ toAff b = Aff.fb o i (algebraMap ℂ A c⁻¹) (toAff a) ∧ Iso b ∧
      (CoIso a → CoIso b) := by
  set x := algebraMap ℂ A c⁻¹ with hxdef
  have hinv := algebraMap_inv_mul hc hx
  have last : ∀ a' : SLH A, a'.n = a.n → Iso a' → a'.S (a.n - 1) (a.n - 1) = a.S o i →
      feedbackLast a' = .ok (fbLast a' x) ∧ toAff (fbLast a' x) = Aff.fb (a.n - 1) (a.n - 1) x (toAff a') ∧
      Iso (fbLast a' x) ∧ (CoIso a' → CoIso (fbLast a' x)) := by
    intro a' hn' hI hS
    have e1 : (1 - a'.S (a'.n - 1) (a'.n - 1)) * x = 1 := by rw [hn', hS]; exact hinv.1
    have e2 : x * (1 - a'.S (a'.n - 1) (a'.n - 1)) = 1 := by rw [hn', hS]; exact hinv.2
    refine ⟨feedbackLast_eq hc (by rw [hn', hS, hx]), ?_, Iso.fbLast (by omega) hI e1, fun hC => CoIso.fbLast (by omega) hC e2⟩
    rw [toAff_fbLast (by omega) hI e1, hn']
  obtain ⟨m1, em1, lm1, vm1, t1⟩ := mapChannels_thread (A := A) ho (show a.n - 1 < a.n by omega)
  obtain ⟨m2, em2, lm2, vm2, t2⟩ := mapChannels_thread (A := A) (show a.n - 1 < a.n by omega) hi
  have hta : (Aff.perm m1.tuple : Aff A).n = (toAff a).n := by simp [lm1]
  have htb : (Aff.perm m2.tuple : Aff A).n = (toAff a).n := by simp [lm2]
  have hn1 : (ofPC m1 : SLH A).n = a.n := by simp [ofPC, lm1]
  have hI1 : Iso (ofPC m1 : SLH A) := Iso.ofPerm vm1
  have hI2 : Iso (ofPC m2 : SLH A) := Iso.ofPerm vm2
  have eA1 : toAff (series (ofPC m1) a) = Aff.series (Aff.perm m1.tuple) (toAff a) := by
    rw [toAff_series hn1 hI1, ofPC, toAff_ofPerm vm1]
  unfold feedback
  simp only
  by_cases c1 : o = a.n - 1
  · rw [if_neg (by simpa using c1)]
    by_cases c2 : i = a.n - 1
    · rw [if_neg (by simpa using c2)]
      obtain ⟨l1, l2, l3, l4⟩ := last a rfl h (by rw [c1, c2])
      exact ⟨_, l1, rfl, by rw [l2, c1, c2], l3, l4⟩
    · rw [if_pos (by simpa using c2), em2]
      simp only [bind, Except.bind]
      have hn2 : a.n = (ofPC m2 : SLH A).n := by simp [ofPC, lm2]
      have eA2 : toAff (series a (ofPC m2)) = Aff.series (toAff a) (Aff.perm m2.tuple) := by
        rw [toAff_series hn2 h, ofPC, toAff_ofPerm vm2]
      have th := Aff.thread_right (x := x) t2 htb (j := a.n - 1) (by simp; omega)
      obtain ⟨l1, l2, l3, l4⟩ := last (series a (ofPC m2)) rfl (Iso.series hn2 h hI2) (by
        rw [← toAff_S, eA2, th.1, toAff_S, c1])
      refine ⟨_, l1, rfl, ?_, l3, fun hC => l4 (CoIso.series hn2 hC (CoIso.ofPerm vm2))⟩
      rw [l2, eA2, th.2, c1, Aff.series_one (by simp)]
  · rw [if_pos (by simpa using c1), em1]
    simp only [bind, Except.bind]
    have hIs := Iso.series hn1 hI1 h
    by_cases c2 : i = a.n - 1
    · rw [if_neg (by simpa using c2)]
      have th := Aff.thread_left (x := x) t1 hta (j := i) (by simpa using hi)
      obtain ⟨l1, l2, l3, l4⟩ := last (series (ofPC m1) a) hn1 hIs (by
        rw [← toAff_S, eA1, ← c2]
        have := th.1
        rw [← c2] at this
        rw [this, toAff_S])
      refine ⟨_, l1, by change (ofPC m1 : SLH A).n - 1 = _; rw [hn1], ?_, l3, fun hC => l4 (CoIso.series hn1 (CoIso.ofPerm vm1) hC)⟩
      rw [l2, eA1]
      have := th.2
      rw [Aff.one_series (by simp)] at this
      rw [← this, c2]
    · rw [if_pos (by simpa using c2), em2]
      simp only
      have hn2 : (series (ofPC m1) a).n = (ofPC m2 : SLH A).n := by
        rw [series_n, hn1]; simp [ofPC, lm2]
      have eA2 : toAff (series (series (ofPC m1) a) (ofPC m2)) =
          Aff.series (Aff.series (Aff.perm m1.tuple) (toAff a)) (Aff.perm m2.tuple) := by
        rw [toAff_series hn2 hIs, eA1, ofPC, toAff_ofPerm vm2]
      have htb' : (Aff.perm m2.tuple : Aff A).n = (Aff.series (Aff.perm m1.tuple) (toAff a)).n := by
        simp [lm1, lm2]
      have th := Aff.thread_right (x := x) t2 htb' (j := a.n - 1) (by simp [lm1]; omega)
      have th' := Aff.thread_left (x := x) t1 hta (j := i) (by simpa using hi)
      obtain ⟨l1, l2, l3, l4⟩ := last (series (series (ofPC m1) a) (ofPC m2)) hn1 (Iso.series hn2 hIs hI2) (by
        rw [← toAff_S, eA2, th.1, th'.1, toAff_S])
      refine ⟨_, l1, by change (ofPC m1 : SLH A).n - 1 = _; rw [hn1], ?_, l3, fun hC => l4 (CoIso.series hn2 (CoIso.series hn1 (CoIso.ofPerm vm1) hC)
        (CoIso.ofPerm vm2))⟩
      rw [l2, eA2, th.2, th'.2, Aff.series_one (by simp), Aff.one_series (by simp)]

theorem series_ofPC_S {a : SLH A} {m : PC} (h : (ofPC m : SLH A).n = a.n) (hv : Valid m.tuple) :
    toAff (series (ofPC m) a) = Aff.series (Aff.perm m.tuple) (toAff a) := by
  rw [toAff_series h (Iso.ofPerm hv), ofPC, toAff_ofPerm hv]

theorem feedback_err {a : SLH A} {o i : ℕ} (h : Iso a) (ho : o < a.n) (hi : i < a.n) (hx : ¬ WellPosed a o i) :
    feedback a o i = .error .algebraError := by
  have last : ∀ a' : SLH A, a'.n = a.n → a'.S (a.n - 1) (a.n - 1) = a.S o i →
      feedbackLast a' = .error .algebraError := by
    intro a' hn' hS
    apply feedbackLast_err
    unfold WellPosed
    rw [hn', hS]; exact hx
  obtain ⟨m1, em1, lm1, vm1, t1⟩ := mapChannels_thread (A := A) ho (show a.n - 1 < a.n by omega)
  obtain ⟨m2, em2, lm2, vm2, t2⟩ := mapChannels_thread (A := A) (show a.n - 1 < a.n by omega) hi
  have hta : (Aff.perm m1.tuple : Aff A).n = (toAff a).n := by simp [lm1]
  have htb : (Aff.perm m2.tuple : Aff A).n = (toAff a).n := by simp [lm2]
  have hn1 : (ofPC m1 : SLH A).n = a.n := by simp [ofPC, lm1]
  have hI1 : Iso (ofPC m1 : SLH A) := Iso.ofPerm vm1
  have eA1 : toAff (series (ofPC m1) a) = Aff.series (Aff.perm m1.tuple) (toAff a) := by
    rw [toAff_series hn1 hI1, ofPC, toAff_ofPerm vm1]
  unfold feedback
  simp only
  by_cases c1 : o = a.n - 1
  · rw [if_neg (by simpa using c1)]
    by_cases c2 : i = a.n - 1
    · rw [if_neg (by simpa using c2)]
      exact last a rfl (by rw [c1, c2])
    · rw [if_pos (by simpa using c2), em2]
      simp only [bind, Except.bind]
      have hn2 : a.n = (ofPC m2 : SLH A).n := by simp [ofPC, lm2]
      have eA2 : toAff (series a (ofPC m2)) = Aff.series (toAff a) (Aff.perm m2.tuple) := by
        rw [toAff_series hn2 h, ofPC, toAff_ofPerm vm2]
      have th := Aff.thread_right (x := 0) t2 htb (j := a.n - 1) (by simp; omega)
      exact last (series a (ofPC m2)) rfl (by rw [← toAff_S, eA2, th.1, toAff_S, c1])
  · rw [if_pos (by simpa using c1), em1]
    simp only [bind, Except.bind]
    have hIs := Iso.series hn1 hI1 h
    by_cases c2 : i = a.n - 1
    · rw [if_neg (by simpa using c2)]
      have th := Aff.thread_left (x := 0) t1 hta (j := i) (by simpa using hi)
      exact last (series (ofPC m1) a) hn1 (by
        rw [← toAff_S, eA1, ← c2]
        have := th.1
        rw [← c2] at this
        rw [this, toAff_S])
    · rw [if_pos (by simpa using c2), em2]
      simp only
      have hn2 : (series (ofPC m1) a).n = (ofPC m2 : SLH A).n := by
        rw [series_n, hn1]; simp [ofPC, lm2]
      have eA2 : toAff (series (series (ofPC m1) a) (ofPC m2)) =
          Aff.series (Aff.series (Aff.perm m1.tuple) (toAff a)) (Aff.perm m2.tuple) := by
        rw [toAff_series hn2 hIs, eA1, ofPC, toAff_ofPerm vm2]
      have htb' : (Aff.perm m2.tuple : Aff A).n = (Aff.series (Aff.perm m1.tuple) (toAff a)).n := by
        simp [lm1, lm2]
      have th := Aff.thread_right (x := 0) t2 htb' (j := a.n - 1) (by simp [lm1]; omega)
      have th' := Aff.thread_left (x := 0) t1 hta (j := i) (by simpa using hi)
      exact last (series (series (ofPC m1) a) (ofPC m2)) hn1 (by
        rw [← toAff_S, eA2, th.1, th'.1, toAff_S])

end QNET.SLH
