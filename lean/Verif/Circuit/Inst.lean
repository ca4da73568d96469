import Verif.Circuit.Create
import Verif.SLH.AffBlocks
import Verif.SLH.Thm

/-!
# SLH triples form a circuit algebra

Interpretation of circuits by SLH triples with unitary `S` (the only one without channels is the empty circuit), symbols being
interpreted by arbitrary such triples.
-/

namespace QNET.Circuit

open QNET.Perm QNET.CPerm Finset

variable {A : Type} [Ring A] [StarRing A] [Algebra ℂ A] [StarModule ℂ A]

/-- Components for the symbols: a triple with unitary `S` and the right number of channels for every symbol. -/
structure Valuation (A : Type) [Ring A] [StarRing A] [Algebra ℂ A] where
  val : ℕ → ℕ → SLH A
  unitary : ∀ s n, 0 < n → SLH.Unitary (val s n)
  dim : ∀ s n, 0 < n → (val s n).n = n

namespace Inst

open SLH

/-- the triples used as values -/
abbrev T (A : Type) [Ring A] [StarRing A] [Algebra ℂ A] : Type := {s : SLH A // Unitary s ∧ (s.n = 0 → s = passThrough 0)}

noncomputable def T.aff (a : T A) : Aff A := toAff a.1

omit [StarModule ℂ A] in
theorem T.aff_n (a : T A) : a.aff.n = a.1.n := rfl

theorem T.ext_aff {a b : T A} (h : a.aff = b.aff) : a = b := Subtype.ext (toAff_inj h)

noncomputable def one (n : ℕ) : T A := ⟨passThrough n, passThrough_unitary n, fun h => by
  have : n = 0 := h
  rw [this]⟩

open Classical in
noncomputable def perm (p : List ℕ) : T A :=
  if h : Valid p then ⟨ofPerm p, ⟨Iso.ofPerm h, CoIso.ofPerm h⟩, fun h0 => by
    have : p = [] := List.eq_nil_of_length_eq_zero h0
    subst this
    rw [← ofPerm_range]; rfl⟩ else one p.length

noncomputable def series (a b : T A) : T A :=
  if h : a.1.n = b.1.n then ⟨SLH.series a.1 b.1, ⟨Iso.series h a.2.1.1 b.2.1.1, CoIso.series h a.2.1.2 b.2.1.2⟩, fun h0 => by
    have h1 : a.1.n = 0 := h0
    rw [a.2.2 h1, b.2.2 (h ▸ h1)]
    exact C13_left_unit (passThrough 0 : SLH A)⟩ else a

noncomputable def concat (a b : T A) : T A :=
  ⟨SLH.concat a.1 b.1, ⟨Iso.concat a.2.1.1 b.2.1.1, CoIso.concat a.2.1.2 b.2.1.2⟩, fun h0 => by
    have h1 : a.1.n + b.1.n = 0 := h0
    rw [a.2.2 (by omega), b.2.2 (by omega)]
    exact (C14_unit _).1⟩

noncomputable def inv (a : T A) : T A :=
  ⟨inverse a.1, ⟨Iso.inverse a.2.1.2, CoIso.inverse a.2.1.1⟩, fun h0 => by
    have h1 : a.1.n = 0 := h0
    rw [a.2.2 h1]
    refine ext' (by rfl) ?_ ?_ ?_
    · intro i j hi; simp [passThrough, mk', inverse] at hi
    · intro i hi; simp [passThrough, mk', inverse] at hi
    · simp [mk', passThrough, inverse]⟩

open Classical in
/-- feedback between existing ports of a circuit with at least two channels -/
noncomputable def fb (a : T A) (o i : ℕ) : Option (T A) :=
  if h : 2 ≤ a.1.n ∧ o < a.1.n ∧ i < a.1.n ∧ ∃ b, SLH.feedback a.1 o i = .ok b then
    some ⟨h.2.2.2.choose, by
      have hb := h.2.2.2.choose_spec
      obtain ⟨c, hc, hx⟩ := (C16_error_iff a.2.1.1 h.2.1 h.2.2.1).1.mp ⟨_, hb⟩
      obtain ⟨b', e, h1, -, h3, h4⟩ := feedback_ok a.2.1.1 h.2.1 h.2.2.1 hc hx
      rw [hb] at e
      injection e with e
      rw [e]
      exact ⟨⟨h3, h4 a.2.1.2⟩, fun h0 => by omega⟩⟩
  else none

def Thread (o i : ℕ) (a b : T A) : Prop := Aff.Thread o i a.aff b.aff

/-! ### their matrices -/

theorem aff_one (n : ℕ) : (one n : T A).aff = Aff.one n := toAff_passThrough n
theorem aff_perm {p : List ℕ} (h : Valid p) : (perm p : T A).aff = Aff.perm p := by
  unfold perm; rw [dif_pos h]; exact toAff_ofPerm h
theorem aff_series {a b : T A} (h : a.1.n = b.1.n) : (series a b).aff = Aff.series a.aff b.aff := by
  unfold series; rw [dif_pos h]; exact toAff_series h a.2.1.1
theorem aff_concat (a b : T A) : (concat a b).aff = Aff.concat a.aff b.aff := toAff_concat _ _

theorem n_one (n : ℕ) : (one n : T A).1.n = n := rfl
theorem n_perm (p : List ℕ) : (perm p : T A).1.n = p.length := by
  unfold perm; split <;> rfl
theorem n_series (a b : T A) : (series a b).1.n = a.1.n := by
  unfold series; split <;> rfl
theorem n_concat (a b : T A) : (concat a b).1.n = a.1.n + b.1.n := rfl
theorem n_inv (a : T A) : (inv a).1.n = a.1.n := rfl

theorem inv_series (a : T A) : series (inv a) a = one a.1.n := by
  apply Subtype.ext
  unfold series; rw [dif_pos (n_inv a)]
  exact (C13_inverse a.2.1).2
theorem series_inv (a : T A) : series a (inv a) = one a.1.n := by
  apply Subtype.ext
  unfold series; rw [dif_pos (n_inv a).symm]
  exact (C13_inverse a.2.1).1

theorem inv_unique {a b : T A} (hd : a.1.n = b.1.n) (h : series a b = one a.1.n) : b = inv a := by
  apply T.ext_aff
  have h1 := congrArg T.aff h
  have h2 := congrArg T.aff (inv_series a)
  rw [aff_series hd, aff_one] at h1
  rw [aff_series (n_inv a), aff_one] at h2
  have e : Aff.series (Aff.series (inv a).aff a.aff) b.aff = Aff.series (inv a).aff (Aff.series a.aff b.aff) :=
    Aff.series_assoc (by simp [T.aff_n, n_inv]) (by simp [T.aff_n, hd])
  rw [h1, h2, Aff.one_series (by simp [T.aff_n, hd]), Aff.series_one (by simp [T.aff_n, n_inv])] at e
  exact e

/-! ### feedback -/

theorem fb_iff {a b : T A} {o i : ℕ} :
    fb a o i = some b ↔ 2 ≤ a.1.n ∧ o < a.1.n ∧ i < a.1.n ∧ SLH.feedback a.1 o i = .ok b.1 := by
  unfold fb
  constructor
  · intro h
    split at h
    · rename_i hc
      injection h with h
      have := hc.2.2.2.choose_spec
      refine ⟨hc.1, hc.2.1, hc.2.2.1, ?_⟩
      rw [← h]; exact this
    · cases h
  · rintro ⟨h1, h2, h3, h4⟩
    have hc : 2 ≤ a.1.n ∧ o < a.1.n ∧ i < a.1.n ∧ ∃ b, SLH.feedback a.1 o i = .ok b := ⟨h1, h2, h3, _, h4⟩
    rw [dif_pos hc]
    congr 1
    apply Subtype.ext
    have := h4.symm.trans hc.2.2.2.choose_spec
    injection this with this
    exact this.symm

theorem fb_total {a : T A} {o i : ℕ} {c : ℂ} (h2 : 2 ≤ a.1.n) (ho : o < a.1.n) (hi : i < a.1.n) (hc : c ≠ 0)
    (hx : algebraMap ℂ A c = 1 - a.aff.S o i) :
    ∃ b, fb a o i = some b ∧ b.aff = Aff.fb o i (algebraMap ℂ A c⁻¹) a.aff ∧ b.1.n = a.1.n - 1 := by
  rw [show a.aff.S o i = a.1.S o i from toAff_S _ _ _] at hx
  obtain ⟨b', e, h1, h5, h3, h4⟩ := feedback_ok a.2.1.1 ho hi hc hx
  exact ⟨⟨b', ⟨h3, h4 a.2.1.2⟩, fun h0 => by omega⟩, fb_iff.mpr ⟨h2, ho, hi, e⟩, h5, h1⟩

theorem fb_none {a : T A} {o i : ℕ} (ho : o < a.1.n) (hi : i < a.1.n)
    (hw : ¬ ∃ c : ℂ, c ≠ 0 ∧ algebraMap ℂ A c = 1 - a.aff.S o i) : fb a o i = none := by
  rw [show a.aff.S o i = a.1.S o i from toAff_S _ _ _] at hw
  cases h : fb a o i with
  | none => rfl
  | some b =>
    exfalso
    rw [fb_iff] at h
    rw [feedback_err a.2.1.1 ho hi hw] at h
    cases h.2.2.2

theorem fb_small {a : T A} {o i : ℕ} (h : ¬ (2 ≤ a.1.n ∧ o < a.1.n ∧ i < a.1.n)) : fb a o i = none := by
  cases h' : fb a o i with
  | none => rfl
  | some b => rw [fb_iff] at h'; exact absurd ⟨h'.1, h'.2.1, h'.2.2.1⟩ h

theorem fb_left (o i j : ℕ) (a b c : T A) (h : Thread o i a b) (hd : a.1.n = c.1.n) (hj : j < c.1.n) :
    fb (series a c) o j = (fb c i j).map (series b) := by
  have ho : o < c.1.n := by have := h.ho; rw [T.aff_n] at this; omega
  have hi : i < c.1.n := by have := h.hi; rw [T.aff_n] at this; omega
  have hb : a.1.n = b.1.n + 1 := h.n_eq
  have hns : (series a c).1.n = c.1.n := by rw [n_series, hd]
  by_cases h2 : 2 ≤ c.1.n
  swap
  · rw [fb_small (by omega), fb_small (by omega)]; rfl
  have key := fun x => Aff.thread_left (x := x) h (C := c.aff) (j := j) hd hj
  rw [← aff_series hd] at key
  by_cases hw : ∃ k : ℂ, k ≠ 0 ∧ algebraMap ℂ A k = 1 - c.aff.S i j
  · obtain ⟨k, hk, hx⟩ := hw
    obtain ⟨u, e1, e2, e3⟩ := fb_total h2 hi hj hk hx
    rw [← (key 0).1] at hx
    obtain ⟨v, f1, f2, f3⟩ := fb_total (a := series a c) (by omega) (by omega) (by omega) hk hx
    rw [e1, f1, Option.map_some]
    congr 1
    apply T.ext_aff
    rw [f2, (key _).2, ← e2, aff_series (by omega)]
  · rw [fb_none hi hj hw]
    rw [← (key 0).1] at hw
    rw [fb_none (by omega) (by omega) hw]; rfl

theorem fb_right (o i j : ℕ) (a b c : T A) (h : Thread o i a b) (hd : a.1.n = c.1.n) (hj : j < c.1.n) :
    fb (series c a) j i = (fb c j o).map (fun x => series x b) := by
  have ho : o < c.1.n := by have := h.ho; rw [T.aff_n] at this; omega
  have hi : i < c.1.n := by have := h.hi; rw [T.aff_n] at this; omega
  have hb : a.1.n = b.1.n + 1 := h.n_eq
  have hns : (series c a).1.n = c.1.n := by rw [n_series]
  by_cases h2 : 2 ≤ c.1.n
  swap
  · rw [fb_small (by omega), fb_small (by omega)]; rfl
  have key := fun x => Aff.thread_right (x := x) h (C := c.aff) (j := j) hd hj
  rw [← aff_series hd.symm] at key
  by_cases hw : ∃ k : ℂ, k ≠ 0 ∧ algebraMap ℂ A k = 1 - c.aff.S j o
  · obtain ⟨k, hk, hx⟩ := hw
    obtain ⟨u, e1, e2, e3⟩ := fb_total h2 hj ho hk hx
    rw [← (key 0).1] at hx
    obtain ⟨v, f1, f2, f3⟩ := fb_total (a := series c a) (by omega) (by omega) (by omega) hk hx
    rw [e1, f1, Option.map_some]
    congr 1
    apply T.ext_aff
    rw [f2, (key _).2, ← e2, aff_series (by omega)]
  · rw [fb_none hj ho hw]
    rw [← (key 0).1] at hw
    rw [fb_none (by omega) (by omega) hw]; rfl

theorem fb_concat_right (a b : T A) (o i : ℕ) (h2 : 2 ≤ b.1.n) (ho : o < b.1.n) (hi : i < b.1.n) :
    fb (concat a b) (a.1.n + o) (a.1.n + i) = (fb b o i).map (concat a) := by
  have key := fun x => Aff.fb_concat_right (a := a.aff) (b := b.aff) (o := o) (i := i) (x := x) ho
  rw [← aff_concat, T.aff_n] at key
  have hn := n_concat a b
  by_cases hw : ∃ k : ℂ, k ≠ 0 ∧ algebraMap ℂ A k = 1 - b.aff.S o i
  · obtain ⟨k, hk, hx⟩ := hw
    obtain ⟨u, e1, e2, e3⟩ := fb_total h2 ho hi hk hx
    rw [← (key 0).1] at hx
    obtain ⟨v, f1, f2, f3⟩ := fb_total (a := concat a b) (by omega) (by omega) (by omega) hk hx
    rw [e1, f1, Option.map_some]
    congr 1
    apply T.ext_aff
    rw [f2, (key _).2, ← e2, aff_concat]
  · rw [fb_none ho hi hw]
    rw [← (key 0).1] at hw
    rw [fb_none (by omega) (by omega) hw]; rfl

theorem fb_concat_left (a b : T A) (o i : ℕ) (h2 : 2 ≤ a.1.n) (ho : o < a.1.n) (hi : i < a.1.n) :
    fb (concat a b) o i = (fb a o i).map (fun x => concat x b) := by
  have key := fun x => Aff.fb_concat_left (a := a.aff) (b := b.aff) (o := o) (i := i) (x := x) ho hi
  rw [← aff_concat] at key
  have hn := n_concat a b
  by_cases hw : ∃ k : ℂ, k ≠ 0 ∧ algebraMap ℂ A k = 1 - a.aff.S o i
  · obtain ⟨k, hk, hx⟩ := hw
    obtain ⟨u, e1, e2, e3⟩ := fb_total h2 ho hi hk hx
    rw [← (key 0).1] at hx
    obtain ⟨v, f1, f2, f3⟩ := fb_total (a := concat a b) (by omega) (by omega) (by omega) hk hx
    rw [e1, f1, Option.map_some]
    congr 1
    apply T.ext_aff
    rw [f2, (key _).2, ← e2, aff_concat]
  · rw [fb_none ho hi hw]
    rw [← (key 0).1] at hw
    rw [fb_none (by omega) (by omega) hw]; rfl

theorem fb_perm (p r : List ℕ) (o i : ℕ) (t : T A) (hp : Valid p) (hr : Valid r) (hl : r.length = p.length - 1) (ho : o < p.length)
    (hi : i < p.length) (h : ClosesLoop p o i r) (hf : fb (perm p) o i = some t) : t = perm r := by
  have hnp := n_perm (A := A) p
  by_cases hne : p[i]? = some o
  · -- then the algebra is trivial
    have hz : (1 : A) = 0 := by
      by_contra h1
      have hw : ¬ ∃ c : ℂ, c ≠ 0 ∧ algebraMap ℂ A c = 1 - (perm p : T A).aff.S o i := by
        rintro ⟨c, hc, hx⟩
        rw [aff_perm hp, Aff.perm_S hp, if_pos hne, sub_self] at hx
        apply h1
        have : algebraMap ℂ A c⁻¹ * algebraMap ℂ A c = 1 := by rw [← map_mul, inv_mul_cancel₀ hc, map_one]
        rw [hx, mul_zero] at this
        exact this.symm
      rw [fb_none (by omega) (by omega) hw] at hf
      cases hf
    have hall : ∀ x y : A, x = y := fun x y => by rw [← one_mul x, ← one_mul y, hz, zero_mul, zero_mul]
    obtain ⟨b, e⟩ : ∃ b, SLH.feedback (perm p : T A).1 o i = .ok b := ⟨_, (fb_iff.mp hf).2.2.2⟩
    have hn : t.1.n = p.length - 1 := by
      have h0 := (fb_iff.mp hf)
      obtain ⟨c, hc, hx⟩ := (C16_error_iff (perm p : T A).2.1.1 h0.2.1 h0.2.2.1).1.mp ⟨_, h0.2.2.2⟩
      obtain ⟨b', e, h1, -, h3, h4⟩ := feedback_ok (perm p : T A).2.1.1 h0.2.1 h0.2.2.1 hc hx
      rw [h0.2.2.2] at e; injection e with e
      rw [e, h1, hnp]
    apply Subtype.ext
    exact ext' (by rw [hn, n_perm, hl]) (fun _ _ _ _ => hall _ _) (fun _ _ => hall _ _) (hall _ _)
  · have hx : algebraMap ℂ A 1 = 1 - (perm p : T A).aff.S o i := by
      rw [aff_perm hp, Aff.perm_S hp, if_neg hne, sub_zero, map_one]
    obtain ⟨b, e1, e2, e3⟩ := fb_total (by have := (fb_iff.mp hf).1; omega) (by omega) (by omega) one_ne_zero hx
    rw [hf] at e1
    injection e1 with e1
    apply T.ext_aff
    rw [e1, e2, aff_perm hp, aff_perm hr, inv_one, map_one, Aff.fb_perm hp hr hl hi hne h]

theorem fb_inv (a : T A) (o i : ℕ) (b : T A) (h : fb a o i = some b) : fb (inv a) i o = some (inv b) := by
  rw [fb_iff] at h ⊢
  exact ⟨h.1, h.2.2.1, h.2.1, C16_inverse a.2.1 h.2.1 h.2.2.1 h.2.2.2⟩

theorem block_perm (bp : List ℕ) (ts : List (T A)) (h : Valid bp) (hl : bp.length = ts.length) :
    series (perm (fbp bp (ts.map (fun t => t.1.n)))) (ts.foldr concat (one 0)) =
      series (((Perm.inv bp).map (fun k => ts.getD k (one 0))).foldr concat (one 0)) (perm (fbp bp (ts.map (fun t => t.1.n)))) := by
  have hcat : ∀ us : List (T A), (us.foldr concat (one 0)).aff = Aff.cat (us.map T.aff) := by
    intro us
    induction us with
    | nil => exact aff_one 0
    | cons u us ih => rw [List.foldr_cons, aff_concat, ih]; rfl
  have hns : ∀ us : List (T A), (us.foldr concat (one 0)).1.n = (us.map (fun t => t.1.n)).sum := by
    intro us
    induction us with
    | nil => rfl
    | cons u us ih => rw [List.foldr_cons, n_concat, ih]; simp
  have hl' : bp.length = (ts.map (fun t => t.1.n)).length := by simpa using hl
  have hF := fbp_valid h hl'
  have hFl := fbp_length h hl'
  have key := Aff.block_perm (A := A) (bp := bp) (ts := ts.map T.aff) h (by simpa using hl)
  rw [List.map_map] at key
  have e1 : (Aff.n ∘ T.aff : T A → ℕ) = (fun t => t.1.n) := rfl
  rw [e1] at key
  have e2 : (Perm.inv bp).map (fun k => (ts.map T.aff).getD k (Aff.one 0)) = ((Perm.inv bp).map (fun k => ts.getD k (one 0))).map T.aff := by
    rw [List.map_map]
    apply List.map_congr_left
    intro k hk
    have hk' : k < ts.length := by
      have := (inv_valid h).mem_iff k |>.mp hk
      simp at this; omega
    simp [List.getElem?_eq_getElem hk']
  rw [e2] at key
  have hsum : ((((Perm.inv bp).map (fun k => ts.getD k (one 0))).foldr concat (one 0)) : T A).1.n = (ts.map (fun t => t.1.n)).sum := by
    have := congrArg Aff.n key
    simp only [Aff.series_n, Aff.perm_n, Aff.cat_n, List.map_map, e1] at this
    rw [hns, List.map_map, ← hFl, this]; rfl
  apply T.ext_aff
  rw [aff_series (by rw [n_perm, hFl, hns]), aff_series (by rw [n_perm, hFl, hsum]), aff_perm hF, hcat, hcat]
  exact key

open Classical in
/-- value of an `SLH` leaf: itself, if its `S` is unitary and it has at least one channel -/
noncomputable def leafT (s : SLH A) : Option (T A) :=
  if h : Unitary s ∧ 0 < s.n then some ⟨s, h.1, fun h0 => by omega⟩ else none

theorem leafT_iff {s : SLH A} {t : T A} : leafT s = some t ↔ t.1 = s ∧ 0 < s.n := by
  unfold leafT
  constructor
  · intro h
    split at h
    · rename_i hc; injection h with h; subst h; exact ⟨rfl, hc.2⟩
    · cases h
  · rintro ⟨rfl, h⟩
    rw [dif_pos ⟨t.2.1, h⟩]

theorem concat_valid {p q : List ℕ} (hp : Valid p) (hq : Valid q) : Valid (p ++ q.map (· + p.length)) := by
  apply valid_of_nodup_lt
  · rw [List.nodup_append]
    refine ⟨hp.nodup, hq.nodup.map (fun a b h => by simpa using h), ?_⟩
    intro a ha b hb hab
    have := (hp.mem_iff a).mp ha
    rw [List.mem_map] at hb
    obtain ⟨c, -, rfl⟩ := hb
    omega
  · intro x hx
    rw [List.length_append, List.length_map]
    rw [List.mem_append, List.mem_map] at hx
    rcases hx with hx | ⟨c, hc, rfl⟩
    · have := (hp.mem_iff x).mp hx; omega
    · have := (hq.mem_iff c).mp hc; omega

noncomputable def symT (ρ : Valuation A) (s n : ℕ) : T A :=
  if h : 0 < n then ⟨ρ.val s n, ρ.unitary s n h, fun h0 => by rw [ρ.dim s n h] at h0; omega⟩ else one 0

end Inst

open Inst

/-- The SLH interpretation, parametrised by the components for the symbols and the treatment of `SLH` leaves. -/
noncomputable def slhAlgWith (ρ : Valuation A) (leaf : SLH A → Option (T A))
    (leaf_dim : ∀ s t, leaf s = some t → t.1.n = s.n ∧ 0 < s.n)
    (leaf_series : ∀ s t a b, leaf s = some a → leaf t = some b → s.n = t.n → leaf (SLH.series s t) = some (series a b))
    (leaf_concat : ∀ s t a b, leaf s = some a → leaf t = some b → leaf (SLH.concat s t) = some (concat a b))
    (leaf_inv : ∀ s a, leaf s = some a → leaf (SLH.inverse s) = some (inv a))
    (leaf_fb : ∀ s s' a b o i, leaf s = some a → fb a o i = some b → SLH.feedback s o i = .ok s' → leaf s' = some b) : CircAlg A where
  T := T A
  dim t := t.1.n
  one := one
  perm := perm
  series := series
  concat := concat
  inv := inv
  fb := fb
  Thread := Thread
  symv := symT ρ
  leaf := leaf
  dim_one := n_one
  dim_perm := n_perm
  dim_series := n_series
  dim_concat := n_concat
  dim_inv := n_inv
  dim_sym s n := by
    unfold symT
    split
    · rename_i h; exact ρ.dim s n h
    · rw [n_one]; omega
  series_assoc a b c h1 h2 := by
    apply T.ext_aff
    rw [aff_series (by rw [n_series, h1, h2]), aff_series h1, aff_series (by rw [n_series, h1]), aff_series h2,
      Aff.series_assoc h1 h2]
  one_series a := by
    apply T.ext_aff
    rw [aff_series (n_one _), aff_one, Aff.one_series (by rfl)]
  series_one a := by
    apply T.ext_aff
    rw [aff_series (n_one _).symm, aff_one, Aff.series_one (by rfl)]
  inv_series := inv_series
  series_inv := series_inv
  concat_assoc a b c := by
    apply T.ext_aff
    simp only [aff_concat, Aff.concat_assoc]
  zero_concat a := by apply T.ext_aff; rw [aff_concat, aff_one, Aff.zero_concat]
  concat_zero a := by apply T.ext_aff; rw [aff_concat, aff_one, Aff.concat_zero]
  one_concat_one m n := by apply T.ext_aff; rw [aff_concat, aff_one, aff_one, aff_one, Aff.one_concat_one]
  interchange a1 a2 b1 b2 h1 h2 := by
    apply T.ext_aff
    rw [aff_series (by rw [n_concat, n_concat, h1, h2]), aff_concat, aff_concat, aff_concat, aff_series h1, aff_series h2,
      Aff.interchange h1 h2]
  zero a h := Subtype.ext (a.2.2 h)
  perm_range n := by apply T.ext_aff; rw [aff_perm (valid_range n), aff_one, Aff.perm_range]
  perm_comp p q hp hq hl := by
    apply T.ext_aff
    rw [aff_series (by rw [n_perm, n_perm, hl]), aff_perm hp, aff_perm hq, aff_perm (comp_valid hl hp hq), Aff.perm_comp hp hq hl]
  perm_concat p q hp hq := by
    apply T.ext_aff
    rw [aff_concat, aff_perm hp, aff_perm hq, aff_perm (concat_valid hp hq), Aff.perm_concat hp hq]
  block_perm := block_perm
  fb_dim a o i b h := by
    have h0 := fb_iff.mp h
    obtain ⟨c, hc, hx⟩ := (SLH.C16_error_iff a.2.1.1 h0.2.1 h0.2.2.1).1.mp ⟨_, h0.2.2.2⟩
    obtain ⟨b', e, h1, -, h3, h4⟩ := SLH.feedback_ok a.2.1.1 h0.2.1 h0.2.2.1 hc hx
    rw [h0.2.2.2] at e; injection e with e
    exact ⟨by rw [e, h1], h0.2.1, h0.2.2.1, h0.1⟩
  thread_perm p red o i hp hr hl hpo h := by
    unfold Thread
    rw [aff_perm hp, aff_perm hr]; exact Aff.thread_perm hp hr hl hpo h
  thread_one n o h := by unfold Thread; rw [aff_one, aff_one]; exact Aff.thread_one h
  thread_concat_left o i a b c h := by unfold Thread; rw [aff_concat, aff_concat]; exact Aff.Thread.concat_left h c.aff
  thread_concat_right o i a b c h := by unfold Thread; rw [aff_concat, aff_concat]; exact Aff.Thread.concat_right h c.aff
  fb_left := fb_left
  fb_right := fb_right
  fb_concat_right := fb_concat_right
  fb_concat_left := fb_concat_left
  fb_perm := fb_perm
  fb_inv := fb_inv
  leaf_dim := leaf_dim
  leaf_series := leaf_series
  leaf_concat := leaf_concat
  leaf_inv := leaf_inv
  leaf_fb := leaf_fb

/-- The SLH interpretation of circuits with SLH leaves. -/
noncomputable def slhAlg (ρ : Valuation A) : CircAlg A :=
  slhAlgWith ρ leafT
    (fun s t h => by rw [leafT_iff] at h; exact ⟨by rw [h.1], h.2⟩)
    (fun s t a b h1 h2 h3 => by
      rw [leafT_iff] at *
      unfold Inst.series
      rw [dif_pos (by rw [h1.1, h2.1]; exact h3)]
      exact ⟨by change SLH.series a.1 b.1 = _; rw [h1.1, h2.1], h1.2⟩)
    (fun s t a b h1 h2 => by
      rw [leafT_iff] at *
      exact ⟨by change SLH.concat a.1 b.1 = _; rw [h1.1, h2.1], by change 0 < s.n + t.n; omega⟩)
    (fun s a h => by
      rw [leafT_iff] at *
      exact ⟨by change SLH.inverse a.1 = _; rw [h.1], h.2⟩)
    (fun s s' a b o i h1 h2 h3 => by
      rw [leafT_iff] at *
      have h0 := fb_iff.mp h2
      obtain ⟨c, hc, hx⟩ := (SLH.C16_error_iff a.2.1.1 h0.2.1 h0.2.2.1).1.mp ⟨_, h0.2.2.2⟩
      obtain ⟨b', e, h6, -, h7, h8⟩ := SLH.feedback_ok a.2.1.1 h0.2.1 h0.2.2.1 hc hx
      rw [h0.2.2.2] at e; injection e with e
      have h9 := h0.2.2.2
      rw [h1.1, h3] at h9
      injection h9 with h9
      exact ⟨h9.symm, by have := h0.1; rw [h9, e, h6]; omega⟩)

/-- The SLH interpretation of circuits without SLH leaves. -/
noncomputable def symAlg (ρ : Valuation A) : CircAlg A :=
  slhAlgWith ρ (fun _ => none) (fun _ _ h => nomatch h) (fun _ _ _ _ h => nomatch h) (fun _ _ _ _ h => nomatch h) (fun _ _ h => nomatch h)
    (fun _ _ _ _ _ _ h => nomatch h)

end QNET.Circuit
