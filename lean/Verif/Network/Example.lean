import Verif.Network.Connect
import Verif.Linear.Fock

/-!
# The hypotheses of C70 can be met

Cavities with annihilation operators `down 0` and `down 1`, and the annihilation operator of a third mode as noise.
-/

namespace QNET.Network

open Finset SLH Circuit
open QNET.Linear (Fock down down_down down_up)

/-- a one-sided cavity with one mode -/
noncomputable def cavity (k : ℕ) : SLH Fock := mk' 1 (fun _ _ => 1) (fun _ => down k) (star (down k) * down k)

theorem cavity_physical (k : ℕ) : Physical (cavity k) := by
  refine ⟨fun i j hi hj => ?_, fun i j hi hj => ?_, ?_⟩
  · have h1 : i = 0 := Nat.lt_one_iff.mp hi
    have h2 : j = 0 := Nat.lt_one_iff.mp hj
    subst h1 h2
    simp [cavity, mk']
  · have h1 : i = 0 := Nat.lt_one_iff.mp hi
    have h2 : j = 0 := Nat.lt_one_iff.mp hj
    subst h1 h2
    simp [cavity, mk']
  · simp [cavity, mk']

/-- symbol number `k` with one channel is a cavity -/
noncomputable def cavities : Valuation Fock where
  val s n := if n = 1 then cavity s else passThrough n
  unitary s n hn := by
    split
    · exact ⟨(cavity_physical s).1, (cavity_physical s).2.1⟩
    · refine ⟨fun k l hk hl => ?_, fun k l hk hl => ?_⟩
      · have hk : k < n := hk
        have hl : l < n := hl
        change ∑ i ∈ range n, _ = _
        rw [Finset.sum_eq_single k]
        · simp [passThrough, mk', hk, hl]
        · intro b hb hne; simp [passThrough, mk', hne]
        · intro h; simp [hk] at h
      · have hk : k < n := hk
        have hl : l < n := hl
        change ∑ i ∈ range n, _ = _
        rw [Finset.sum_eq_single k]
        · simp only [passThrough, mk', hk, hl, and_self, if_true, eq_comm]
          split <;> simp_all [eq_comm]
        · intro b hb hne; simp [passThrough, mk', Ne.symm hne]
        · intro h; simp [hk] at h
  dim s n hn := by
    split
    · next h => rw [h]; rfl
    · rfl

theorem cavities_val (s : ℕ) : cavities.val s 1 = cavity s := rfl

theorem down_commute {j k : ℕ} (h : j ≠ k) : Commute (down j) (star (down k)) := by
  have := down_up j k
  rw [if_neg h, sub_eq_zero] at this
  exact this

theorem down_outside {j k : ℕ} (h : j ≠ k) : Outside (down j) (cavity k) := by
  refine ⟨(down_commute h).mul_right (down_down j k), fun i hi => ?_, fun i i' hi hi' => ?_⟩
  · have h1 : i = 0 := Nat.lt_one_iff.mp hi
    subst h1
    exact ⟨by simpa [cavity, mk'] using (show Commute (down j) (down k) from down_down j k), by simpa [cavity, mk'] using down_commute h⟩
  · have h1 : i = 0 := Nat.lt_one_iff.mp hi
    have h2 : i' = 0 := Nat.lt_one_iff.mp hi'
    subst h1 h2
    simp [cavity, mk']

/-- two cavities; the output of cavity 0 is the input of cavity 1 -/
abbrev loop : Expr Fock := .feedback (.concat (.sym 0 1) (.sym 1 1)) 0 1

/-- the hypotheses of `C70_network` and `C70_local` are met by two cavities with a feedback loop and the observable `down 0` -/
example : ∃ s, loop.WellFormed ∧ loop.eval cavities.val = .ok s ∧ (∀ p ∈ components cavities.val loop, Physical p.2) ∧
    (∀ p ∈ components cavities.val loop, p.2 ≠ cavity 0 → Outside (down 0) p.2) := by
  have hc : ∀ p ∈ components cavities.val loop, p.2 = cavity 0 ∨ p.2 = cavity 1 := by
    intro p hp
    simp only [components, List.cons_append, List.nil_append, List.mem_cons, List.not_mem_nil, or_false] at hp
    rcases hp with rfl | rfl
    · exact .inl rfl
    · exact .inr rfl
  have hiso : Iso (SLH.concat (cavity 0) (cavity 1)) := (cavity_physical 0).1.concat (cavity_physical 1).1
  obtain ⟨s, hs⟩ := (C16_error_iff hiso (o := 0) (i := 1) (by decide) (by decide)).1.mpr ⟨1, one_ne_zero, by simp [SLH.concat, cavity, mk']⟩
  refine ⟨s, ⟨⟨Nat.one_pos, Nat.one_pos⟩, by decide, by decide, by decide⟩, hs, ?_, ?_⟩
  · intro p hp
    rcases hc p hp with h | h <;> rw [h] <;> exact cavity_physical _
  · intro p hp hne
    rcases hc p hp with h | h
    · exact absurd h hne
    · rw [h]; exact down_outside (by decide)

/-- the hypotheses of `C70_heisenberg_eom_partial` are met by two cavities in series, the observable `down 0`, and noise of another mode -/
example : ∃ s c v l, (Expr.series (.sym 1 1) (.sym 0 1) : Expr Fock).WellFormed ∧ (Expr.series (.sym 1 1) (.sym 0 1) : Expr Fock).Symbolic ∧
    (Expr.series (.sym 1 1) (.sym 0 1) : Expr Fock).eval cavities.val = .ok s ∧ simplify false 10 (Expr.series (.sym 1 1) (.sym 0 1) : Expr Fock) = .ok c ∧ c.toSLH cavities.val = .ok s ∧
    (∀ p ∈ components cavities.val (Expr.series (.sym 1 1) (.sym 0 1) : Expr Fock), star p.2.H = p.2.H) ∧ (∀ i, i < s.n → Commute (star (down 2)) (down 0)) ∧
    (∀ i k l, i < s.n → Commute (star (down 2)) (s.S k l) ∧ Commute (star (down 2)) (star (s.S k l))) ∧ (∀ i j, i < s.n → j < s.n → Commute (down 0) (s.S i j)) ∧
    Net cavities.val (Expr.series (.sym 1 1) (.sym 0 1) : Expr Fock) (fun _ => down 2) v l := by
  have hw : (Expr.series (.sym 1 1) (.sym 0 1) : Expr Fock).WellFormed := ⟨Nat.one_pos, Nat.one_pos, rfl⟩
  have hs : (Expr.series (.sym 1 1) (.sym 0 1) : Expr Fock).eval cavities.val = .ok (series (cavity 1) (cavity 0)) := rfl
  have hS : ∀ i j, (series (cavity 1) (cavity 0)).S i j = if i < 1 ∧ j < 1 then 1 else 0 := by
    intro i j
    by_cases h : i < 1 ∧ j < 1
    · obtain ⟨h1, h2⟩ := h
      rw [Nat.lt_one_iff] at h1 h2
      subst h1 h2
      simp [series, cavity, mk']
    · rw [if_neg h]
      exact (series (cavity 1) (cavity 0)).hS i j h
  have hsimp : simplify false 10 (Expr.series (.sym 1 1) (.sym 0 1) : Expr Fock) = .ok (.series [.sym 1 1, .sym 0 1]) := by kernel_rfl
  obtain ⟨v, l, hl⟩ := (C70_network cavities hw hs (fun _ => down 2)).1
  refine ⟨_, _, v, l, hw, ⟨trivial, trivial⟩, hs, hsimp, C17_symbolic cavities hw ⟨trivial, trivial⟩ hs hsimp, ?_, ?_, ?_, ?_, hl⟩
  · intro p hp
    simp only [components, List.cons_append, List.nil_append, List.mem_cons, List.not_mem_nil, or_false] at hp
    rcases hp with rfl | rfl
    · exact (cavity_physical 1).2.2
    · exact (cavity_physical 0).2.2
  · exact fun _ _ => (down_commute (by decide)).symm
  · intro i k l hi
    rw [hS]
    split <;> simp
  · intro i j hi hj
    rw [hS]
    split <;> simp

/-- two cavities as arguments of `connect` -/
def twoCavities : List (Component Fock) := [⟨.sym 0 1, 0, none, none⟩, ⟨.sym 1 1, 1, none, none⟩]

theorem twoCavities_open : connectOpen false 20 twoCavities [byIndex 0 0 1 0] = .ok (.series [.concat [.sym 1 1, .sym 0 1], .perm [1, 0]], 1) := by kernel_rfl

/-- the hypotheses of `C70_connect_partial` are met by two cavities with the output of cavity 0 connected to the input of cavity 1 -/
example : Labelled twoCavities ∧ List.Forall₂ (ComponentOf cavities 20) twoCavities [cavity 0, cavity 1] ∧
    (∃ r, connectSLH cavities.val false 20 twoCavities [byIndex 0 0 1 0] = .ok r) ∧ List.Forall₂ (IsSource twoCavities) [byIndex 0 0 1 0] [0] := by
  refine ⟨?_, ?_, ?_, ?_⟩
  · intro d hd
    simp only [twoCavities, List.mem_cons, List.not_mem_nil, or_false] at hd
    rcases hd with rfl | rfl <;> exact ⟨fun l h => (by cases h), fun l h => (by cases h)⟩
  · exact .cons ⟨.sym 0 1, Nat.succ_pos _, trivial, rfl, rfl⟩ (.cons ⟨.sym 1 1, Nat.succ_pos _, trivial, rfl, rfl⟩ .nil)
  · have hv : Perm.Valid [1, 0] := by unfold Perm.Valid; decide
    have hiso : Iso (SLH.concat (cavity 1) (cavity 0)) := (cavity_physical 1).1.concat (cavity_physical 0).1
    have hi : Iso (series (SLH.concat (cavity 1) (cavity 0)) (ofPerm [1, 0])) := Iso.series rfl hiso (Iso.ofPerm hv)
    obtain ⟨r, hr⟩ := (C16_error_iff hi (o := 1) (i := 1) (by decide) (by decide)).1.mpr
      ⟨1, one_ne_zero, by simp [series, SLH.concat, cavity, ofPerm, mk', Finset.sum_range_succ]⟩
    refine ⟨r, ?_⟩
    unfold connectSLH
    rw [twoCavities_open]
    change ((seriesFold (SLH.concat (cavity 1) (cavity 0)) [ofPerm [1, 0]]).bind fun s => closeLast 1 s) = _
    have : seriesFold (SLH.concat (cavity 1) (cavity 0)) [ofPerm [1, 0]] = .ok (series (SLH.concat (cavity 1) (cavity 0)) (ofPerm [1, 0])) := rfl
    rw [this]
    change ((feedback (series (SLH.concat (cavity 1) (cavity 0)) (ofPerm [1, 0])) 1 1).bind fun s => closeLast 0 s) = _
    rw [hr]
    rfl
  · exact .cons ⟨0, 0, _, rfl, rfl, Nat.succ_pos _, rfl, rfl⟩ .nil

end QNET.Network
