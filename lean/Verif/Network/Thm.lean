import Verif.Network.Law
import Verif.Circuit.Refute

/-!
# Equations of motion of circuits (C70)

What the user writes (`Expr`, `Verif/Circuit/Model.lean`) is read as a diagram: components, wires that carry fields, loops. `Net` says that an assignment of fields to all wires
is consistent. The theorems say that the triple that the code computes for the circuit, and for the simplified circuit, has exactly the outputs and the equations of motion of the diagram.
-/

namespace QNET.Network

open Finset SLH Circuit
open QNET.Perm (Res)

variable {A : Type} [Ring A] [StarRing A] [Algebra ℂ A]

/-! ### Specification -/

/-- A component in a network, with the fields at its inputs. `forward` is false for components inside of an odd number of inversions, which evolve backwards and whose inputs are
outputs of the inverted component. -/
structure Part (A : Type) [Zero A] where
  forward : Bool
  slh : SLH A
  inputs : ℕ → A

/-- the contribution of the component to the time derivative of `X` -/
noncomputable def Part.rate (X : A) (p : Part A) : A := if p.forward then evolve p.slh X p.inputs else -evolve p.slh X p.inputs

/-- the same component, reversed -/
def Part.reverse (p : Part A) : Part A := { p with forward := !p.forward }

/-- `Net ρ e u v l`: with the fields `u` at the inputs of the diagram `e`, there are fields on all internal wires such that the outputs are `v`, and `l` are the components with their
inputs. A loop carries a field `w` which is the output `o` of the circuit inside of the loop, and its input `i`. -/
inductive Net (ρ : ℕ → ℕ → SLH A) : Expr A → (ℕ → A) → (ℕ → A) → List (Part A) → Prop
  | sym {s n u v} : (∀ k, k < n → v k = output (ρ s n) u k) → Net ρ (.sym s n) u v [⟨true, ρ s n, u⟩]
  | slh {s u v} : (∀ k, k < s.n → v k = output s u k) → Net ρ (.slh s) u v [⟨true, s, u⟩]
  | cperm {p : List ℕ} {u v} : (∀ j k : ℕ, p[j]? = some k → v k = u j) → Net ρ (.cperm p) u v []
  | cid {n u v} : (∀ k, k < n → v k = u k) → Net ρ (.cid n) u v []
  | series {a b u w v la lb} : Net ρ b u w lb → Net ρ a w v la → Net ρ (.series a b) u v (la ++ lb)
  | concat {a b u v la lb} : Net ρ a u v la → Net ρ b (fun j => u (a.channels + j)) (fun j => v (a.channels + j)) lb → Net ρ (.concat a b) u v (la ++ lb)
  | feedback {a o i u v v' w l} : Net ρ a (loopInput i w u) v' l → v' o = w → (∀ k, k < a.channels - 1 → v k = v' (CPerm.skip o k)) → Net ρ (.feedback a o i) u v l
  | inverse {a u v u' v' l} : Net ρ a u' v' l → (∀ k, k < a.channels → v' k = u k) → (∀ k, k < a.channels → v k = u' k) → Net ρ (.inverse a) u v (l.map Part.reverse)

/-- the components of an expression, and whether they are reversed -/
def components (ρ : ℕ → ℕ → SLH A) : Expr A → List (Bool × SLH A)
  | .sym s n => [(true, ρ s n)]
  | .slh s => [(true, s)]
  | .cperm _ => []
  | .cid _ => []
  | .series a b => components ρ a ++ components ρ b
  | .concat a b => components ρ a ++ components ρ b
  | .feedback a _ _ => components ρ a
  | .inverse a => (components ρ a).map fun p => (!p.1, p.2)

/-- `X` commutes with all operators of the component -/
def Outside (X : A) (a : SLH A) : Prop :=
  Commute X a.H ∧ (∀ i, i < a.n → Commute X (a.L i) ∧ Commute X (star (a.L i))) ∧ ∀ i j, i < a.n → j < a.n → Commute X (a.S i j)

/-! ### Lemmas -/

theorem Net.components {ρ : ℕ → ℕ → SLH A} {e : Expr A} {u v : ℕ → A} {l : List (Part A)} (h : Net ρ e u v l) :
    l.map (fun p => (p.forward, p.slh)) = components ρ e := by
  induction h with
  | sym _ => rfl
  | slh _ => rfl
  | cperm _ => rfl
  | cid _ => rfl
  | series _ _ h1 h2 => rw [List.map_append, h1, h2]; rfl
  | concat _ _ h1 h2 => rw [List.map_append, h1, h2]; rfl
  | feedback _ _ _ h => exact h
  | inverse _ _ _ h =>
    rw [Network.components, ← h, List.map_map, List.map_map]
    rfl

theorem rate_reverse (X : A) (l : List (Part A)) : ((l.map Part.reverse).map (Part.rate X)).sum = -(l.map (Part.rate X)).sum := by
  induction l with
  | nil => simp
  | cons p l ih =>
    rw [List.map_cons, List.map_cons, List.sum_cons, ih, List.map_cons, List.sum_cons, neg_add]
    congr 1
    cases h : p.forward <;> simp [Part.rate, Part.reverse, h]

variable [StarModule ℂ A]

/-- Expressions stand for unitary triples with the right number of channels. -/
theorem eval_unitary (ρ : Valuation A) {e : Expr A} {s : SLH A} (hw : e.WellFormed) (hs : e.eval ρ.val = .ok s) : Unitary s ∧ s.n = e.channels := by
  obtain ⟨t, e1, e2, e3⟩ := mean_of_eval (ρ := ρ) (leaf := Inst.leafT) e s hw (leavesIn_wf e hw) hs
  have _ : (slhAlg ρ).mean e = some t := e1
  rw [← e2]
  exact ⟨t.2.1, by rw [← e3, e2]⟩

/-- driving the component with the outputs of its inverse -/
theorem output_inverse {a : SLH A} (ha : Unitary a) (u : ℕ → A) {k : ℕ} (hk : k < a.n) : output a (output (inverse a) u) k = u k := by
  have h : series a (inverse a) = passThrough a.n := series_inverse ha.2
  rw [← output_series (a := a) (b := inverse a) rfl u hk, h, (evolve_passThrough a.n 0 u).1 k hk]

theorem network (ρ : Valuation A) (e : Expr A) : ∀ (s : SLH A), e.WellFormed → e.eval ρ.val = .ok s → ∀ u : ℕ → A,
    (∀ v, (∀ k, k < e.channels → v k = output s u k) → ∃ l, Net ρ.val e u v l) ∧
    ∀ v l, Net ρ.val e u v l → (∀ k, k < e.channels → v k = output s u k) ∧ ∀ X, evolve s X u = (l.map (Part.rate X)).sum := by
  induction e with
  | sym s n =>
    intro t hw hs u
    injection hs with hs; subst hs
    refine ⟨fun v hv => ⟨_, .sym hv⟩, fun v l h => ?_⟩
    cases h with
    | sym h => exact ⟨h, fun X => by simp [Part.rate]⟩
  | slh s =>
    intro t hw hs u
    injection hs with hs; subst hs
    refine ⟨fun v hv => ⟨_, .slh hv⟩, fun v l h => ?_⟩
    cases h with
    | slh h => exact ⟨h, fun X => by simp [Part.rate]⟩
  | cperm p =>
    intro t hw hs u
    have hv : Perm.Valid p := (Perm.valid_iff p).mpr hw
    injection hs with hs; subst hs
    refine ⟨fun v hv' => ⟨_, .cperm fun j k h => ?_⟩, fun v l h => ?_⟩
    · rw [hv' k (Aff.Valid.getElem?_lt hv h).2, output_ofPerm hv u h]
    cases h with
    | cperm h =>
      refine ⟨fun k hk => ?_, fun X => by simp [evolve_ofPerm hv]⟩
      obtain ⟨j, -, hj⟩ := Aff.Valid.exists_preimage hv hk
      rw [h j k hj, output_ofPerm hv u hj]
  | cid n =>
    intro t hw hs u
    injection hs with hs; subst hs
    refine ⟨fun v hv => ⟨_, .cid fun k h => by rw [hv k h, (evolve_passThrough n 0 u).1 k h]⟩, fun v l h => ?_⟩
    cases h with
    | cid h => exact ⟨fun k hk => by rw [h k hk, (evolve_passThrough n 0 u).1 k hk], fun X => by simp [(evolve_passThrough n X u).2]⟩
  | series a b iha ihb =>
    intro t hw hs u
    obtain ⟨x, hx, hs⟩ := bind_ok.mp hs
    obtain ⟨y, hy, hs⟩ := bind_ok.mp hs
    injection hs with hs; subst hs
    obtain ⟨ux, nx⟩ := eval_unitary ρ hw.1 hx
    obtain ⟨uy, ny⟩ := eval_unitary ρ hw.2.1 hy
    have hn : x.n = y.n := by rw [nx, ny, hw.2.2]
    constructor
    · intro v hv
      obtain ⟨lb, hb⟩ := (ihb y hw.2.1 hy u).1 (output y u) fun _ _ => rfl
      obtain ⟨la, ha⟩ := (iha x hw.1 hx (output y u)).1 v fun k hk => by rw [hv k hk, output_series hn u (by rw [nx]; exact hk)]
      exact ⟨_, .series hb ha⟩
    · intro v l h
      cases h with
      | series h1 h2 =>
        obtain ⟨g1, g2⟩ := (ihb y hw.2.1 hy u).2 _ _ h1
        obtain ⟨g3, g4⟩ := (iha x hw.1 hx _).2 _ _ h2
        rw [← ny, ← hn] at g1
        refine ⟨fun k hk => ?_, fun X => ?_⟩
        · rw [g3 k hk, output_congr g1, output_series hn u (by rw [nx]; exact hk)]
        · rw [evolve_series hn ux.1, ← evolve_congr g1, g2, g4, List.map_append, List.sum_append]
  | concat a b iha ihb =>
    intro t hw hs u
    obtain ⟨x, hx, hs⟩ := bind_ok.mp hs
    obtain ⟨y, hy, hs⟩ := bind_ok.mp hs
    injection hs with hs; subst hs
    obtain ⟨ux, nx⟩ := eval_unitary ρ hw.1 hx
    obtain ⟨uy, ny⟩ := eval_unitary ρ hw.2 hy
    constructor
    · intro v hv
      obtain ⟨la, ha⟩ := (iha x hw.1 hx u).1 v fun k hk => by
        rw [hv k (Nat.lt_add_right _ hk), output_concat_l u (by rw [nx]; exact hk)]
      obtain ⟨lb, hb⟩ := (ihb y hw.2 hy fun j => u (a.channels + j)).1 (fun j => v (a.channels + j)) fun k hk => by
        rw [hv _ (Nat.add_lt_add_left hk _), ← nx, output_concat_r u (by rw [ny]; exact hk)]
      exact ⟨_, .concat ha hb⟩
    · intro v l h
      cases h with
      | concat h1 h2 =>
        obtain ⟨g1, g2⟩ := (iha x hw.1 hx u).2 _ _ h1
        obtain ⟨g3, g4⟩ := (ihb y hw.2 hy _).2 _ _ h2
        refine ⟨fun k hk => ?_, fun X => ?_⟩
        · by_cases h : k < a.channels
          · rw [g1 k h, output_concat_l u (by rw [nx]; exact h)]
          · have hk' : k < a.channels + b.channels := hk
            obtain ⟨j, rfl⟩ := Nat.exists_eq_add_of_le (Nat.le_of_not_lt h)
            rw [g3 j (by omega), ← nx, output_concat_r u (by rw [ny]; omega)]
        · rw [evolve_concat, nx, g2, g4, List.map_append, List.sum_append]
  | feedback a o i ih =>
    intro t hw hs u
    obtain ⟨x, hx, hs⟩ := bind_ok.mp hs
    obtain ⟨ux, nx⟩ := eval_unitary ρ hw.1 hx
    have ho : o < x.n := by rw [nx]; exact hw.2.2.1
    have hi : i < x.n := by rw [nx]; exact hw.2.2.2
    constructor
    · intro v hv
      obtain ⟨w, h1, h2, h3, h4⟩ := C16_io_elimination ux.1 ho hi hs u
      obtain ⟨l, hl⟩ := (ih x hw.1 hx (loopInput i w u)).1 _ fun _ _ => rfl
      exact ⟨l, .feedback hl h1 fun k hk => by rw [hv k hk, h3 k (by rw [nx]; exact hk)]⟩
    · intro v l h
      cases h with
      | feedback h1 h2 h3 =>
        obtain ⟨g1, g2⟩ := (ih x hw.1 hx _).2 _ _ h1
        have hw' := (g1 o (by rw [← nx]; exact ho)).symm.trans h2
        have g3 := fun X => evolve_feedback ux.1 ho hi hs X u _ hw'
        refine ⟨fun k hk => ?_, fun X => by rw [(g3 X).1, g2]⟩
        have hk' : k < a.channels - 1 := hk
        have : CPerm.skip o k < a.channels := by unfold CPerm.skip; split <;> omega
        rw [h3 k hk, g1 _ this, (g3 0).2 k (by rw [nx]; exact hk)]
  | inverse a ih =>
    intro t hw hs u
    obtain ⟨x, hx, hs⟩ := bind_ok.mp hs
    injection hs with hs; subst hs
    obtain ⟨ux, nx⟩ := eval_unitary ρ hw.1 hx
    constructor
    · intro v hv
      have hv' : ∀ k, k < x.n → v k = output (inverse x) u k := fun k hk => hv k (show k < a.channels by rw [← nx]; exact hk)
      obtain ⟨l, hl⟩ := (ih x hw.1 hx v).1 u fun k hk => by
        rw [output_congr hv', output_inverse ux u (by rw [nx]; exact hk)]
      exact ⟨_, .inverse hl (fun _ _ => rfl) fun _ _ => rfl⟩
    · intro v l h
      cases h with
      | inverse h1 h2 h3 =>
        obtain ⟨g1, g2⟩ := (ih x hw.1 hx _).2 _ _ h1
        have hu : ∀ k, k < x.n → u k = output x _ k := fun k hk => by
          rw [nx] at hk
          rw [← h2 k hk, g1 k hk]
        refine ⟨fun k hk => ?_, fun X => ?_⟩
        · rw [h3 k hk, output_congr (a := inverse x) hu, (evolve_inverse ux 0 _).2 k (by rw [nx]; exact hk)]
        · rw [evolve_congr (a := inverse x) hu, (evolve_inverse ux X _).1, g2, rate_reverse]

/-- the Hamiltonian of a network of components with Hermitian Hamiltonians is Hermitian -/
theorem eval_hermitian (ρ : Valuation A) (e : Expr A) : ∀ (s : SLH A), e.eval ρ.val = .ok s → (∀ p ∈ components ρ.val e, star p.2.H = p.2.H) → star s.H = s.H := by
  induction e with
  | sym a n =>
    intro s h hc
    injection h with h; subst h
    exact hc _ (List.mem_singleton_self _)
  | slh a =>
    intro s h hc
    injection h with h; subst h
    exact hc _ (List.mem_singleton_self _)
  | cperm p =>
    intro s h hc
    injection h with h; subst h
    simp [ofPerm, mk']
  | cid n =>
    intro s h hc
    injection h with h; subst h
    simp [passThrough, mk']
  | series a b iha ihb =>
    intro s h hc
    obtain ⟨x, hx, h⟩ := bind_ok.mp h
    obtain ⟨y, hy, h⟩ := bind_ok.mp h
    injection h with h; subst h
    simp only [components, List.mem_append] at hc
    have h1 := iha x hx fun p hp => hc p (.inl hp)
    have h2 := ihb y hy fun p hp => hc p (.inr hp)
    change star (x.H + y.H + imAdjoint _) = x.H + y.H + imAdjoint _
    rw [star_add, star_add, h1, h2, star_imAdjoint]
  | concat a b iha ihb =>
    intro s h hc
    obtain ⟨x, hx, h⟩ := bind_ok.mp h
    obtain ⟨y, hy, h⟩ := bind_ok.mp h
    injection h with h; subst h
    simp only [components, List.mem_append] at hc
    have h1 := iha x hx fun p hp => hc p (.inl hp)
    have h2 := ihb y hy fun p hp => hc p (.inr hp)
    change star (x.H + y.H) = x.H + y.H
    rw [star_add, h1, h2]
  | feedback a o i ih =>
    intro s h hc
    obtain ⟨x, hx, h⟩ := bind_ok.mp h
    exact feedback_H (ih x hx hc) h
  | inverse a ih =>
    intro s h hc
    obtain ⟨x, hx, h⟩ := bind_ok.mp h
    injection h with h; subst h
    have h1 := ih x hx fun p hp => hc (!p.1, p.2) (by rw [components, List.mem_map]; exact ⟨p, hp, rfl⟩)
    change star (-x.H) = -x.H
    rw [star_neg, h1]

/-! ### C70 -/

/-- C70: the diagram of a circuit has, for all fields at its inputs, exactly one consistent choice of the fields at its outputs; these are the outputs `S u + L` of the triple of the circuit,
and the equation of motion of every observable is the sum of the equations of motion of the components, each of which is driven by the fields at its own inputs. -/
theorem C70_network (ρ : Valuation A) {e : Expr A} {s : SLH A} (hw : e.WellFormed) (hs : e.eval ρ.val = .ok s) (u : ℕ → A) :
    (∃ v l, Net ρ.val e u v l) ∧ ∀ v l, Net ρ.val e u v l → l.map (fun p => (p.forward, p.slh)) = components ρ.val e ∧
      (∀ k, k < e.channels → v k = output s u k) ∧ ∀ X, evolve s X u = (l.map (Part.rate X)).sum := by
  obtain ⟨h1, h2⟩ := network ρ e s hw hs u
  exact ⟨⟨_, h1 _ fun _ _ => rfl⟩, fun v l h => ⟨h.components, h2 v l h⟩⟩

/-- C70: `symbolic_heisenberg_eom(X, noises)` of the circuit that QNET returns for an expression (after all rewriting) is the equation of motion of the diagram, if the noises commute with
the system and the Hamiltonians of the components are Hermitian; the conditions on `X` and the channels are those of `C54_langevin_partial`. Missing: operator-valued scattering with more than one
channel, where `symbolic_heisenberg_eom` is wrong (`C54_refuted_gauge`). -/
theorem C70_heisenberg_eom_partial (ρ : Valuation A) {e : Expr A} {s t : SLH A} {c : Circ A} {fuel : ℕ} (hw : e.WellFormed) (hsym : e.Symbolic) (hs : e.eval ρ.val = .ok s)
    (hc : simplify false fuel e = .ok c) (ht : c.toSLH ρ.val = .ok t) (hH : ∀ p ∈ components ρ.val e, star p.2.H = p.2.H) {X : A} {noises v : ℕ → A} {l : List (Part A)} {overlap : Bool}
    (hX : ∀ i, i < t.n → Commute (star (noises i)) X) (hS : ∀ i k l, i < t.n → Commute (star (noises i)) (t.S k l) ∧ Commute (star (noises i)) (star (t.S k l)))
    (hov : overlap = false → ∀ i j, i < t.n → j < t.n → Commute X (t.S i j)) (hn : overlap = true → t.n ≤ 1)
    (hl : Net ρ.val e noises v l) : heisenbergNoise t overlap X noises = (l.map (Part.rate X)).sum := by
  have := C17_symbolic ρ hw hsym hs hc
  rw [ht] at this
  injection this with this; subst this
  rw [C54_langevin_partial (eval_unitary ρ hw hs).1.1 overlap X noises hov hn, ← evolve_langevin (eval_hermitian ρ e t hs hH) X noises hX hS]
  exact ((network ρ e t hw hs noises).2 v l hl).2 X

open Classical in
/-- C70, locality: the equation of motion of an observable that commutes with the operators of all components but those equal to `a` is the one of the components `a` alone, driven by
the fields at their inputs. -/
theorem C70_local (ρ : Valuation A) {e : Expr A} {s a : SLH A} (hw : e.WellFormed) (hs : e.eval ρ.val = .ok s) (hp : ∀ p ∈ components ρ.val e, Physical p.2)
    {X : A} (hX : ∀ p ∈ components ρ.val e, p.2 ≠ a → Outside X p.2) {u v : ℕ → A} {l : List (Part A)} (hl : Net ρ.val e u v l) :
    evolve s X u = ((l.filter fun p => p.slh = a).map (Part.rate X)).sum := by
  rw [((network ρ e s hw hs u).2 v l hl).2 X]
  have h : ∀ p ∈ l, p.slh ≠ a → p.rate X = 0 := by
    intro p hpl hne
    have hm : (p.forward, p.slh) ∈ components ρ.val e := by rw [← hl.components]; exact List.mem_map.mpr ⟨p, hpl, rfl⟩
    obtain ⟨h1, h2, h3⟩ := hX _ hm hne
    have := evolve_causal (hp _ hm).1 (hp _ hm).2.2 p.inputs h1 h2 h3
    unfold Part.rate
    simp only at this
    rw [this]
    simp
  clear hl
  induction l with
  | nil => rfl
  | cons p l ih =>
    rw [List.map_cons, List.sum_cons, List.filter_cons, ih fun q hq => h q (List.mem_cons_of_mem _ hq)]
    by_cases hpa : p.slh = a
    · rw [if_pos (by simpa using hpa), List.map_cons, List.sum_cons]
    · rw [if_neg (by simpa using hpa), h p List.mem_cons_self hpa, zero_add]

/-- C70, causality of the series product: observables of the upstream component are not affected by what follows; observables of the downstream component are driven by the outputs of the
upstream component. -/
theorem C70_cascade {a b : SLH A} (hn : a.n = b.n) (ha : Physical a) (hb : Physical b) (X : A) (u : ℕ → A) :
    (Outside X a → evolve (series a b) X u = evolve b X u) ∧ (Outside X b → evolve (series a b) X u = evolve a X (output b u)) := by
  rw [evolve_series hn ha.1]
  refine ⟨fun h => ?_, fun h => ?_⟩
  · rw [evolve_causal ha.1 ha.2.2 _ h.1 h.2.1 h.2.2, zero_add]
  · rw [evolve_causal hb.1 hb.2.2 _ h.1 h.2.1 h.2.2, add_zero]

end QNET.Network
