import Verif.Circuit.TermStep1
import Mathlib.Data.Prod.Lex
import Mathlib.Order.WellFounded

/-!
# The order on lists of operands of series products (tools for C78)

A rule either removes a component, or makes the list smaller in an order in which a permutation weighs more the more components are to its right.
-/

namespace QNET.Circuit

open QNET.Perm QNET.CPerm CircAlg

variable {A : Type} [Ring A] [StarRing A] [Algebra ℂ A]

/-- the weight of an operand -/
def wt (n : ℕ) : Circ A → ℕ
  | .perm p => n ^ n + 1 + rank n p
  | _ => 2 * n ^ n + 1

/-- the number of operands that are neither permutations nor identities -/
def Wn : List (Circ A) → ℕ
  | [] => 0
  | z :: l => (if deep z = 0 then 0 else 1) + Wn l

/-- the base -/
def Bs (n : ℕ) : ℕ := 6 * n ^ n + 10

/-- the weight of a list of operands -/
def mu (n : ℕ) : List (Circ A) → ℕ
  | [] => 0
  | z :: l => wt n z * Bs n ^ Wn l + mu n l

theorem Wn_append : ∀ a b : List (Circ A), Wn (a ++ b) = Wn a + Wn b
  | [], b => by simp [Wn]
  | x :: a, b => by rw [List.cons_append, Wn, Wn, Wn_append a b]; omega

theorem mu_append (n : ℕ) : ∀ a b : List (Circ A), mu n (a ++ b) = mu n a * Bs n ^ Wn b + mu n b
  | [], b => by simp [mu]
  | x :: a, b => by
    rw [List.cons_append, mu, mu, mu_append n a b, Wn_append, Nat.pow_add]
    ring

theorem Bs_pos (n : ℕ) : 0 < Bs n := by unfold Bs; omega

theorem Wn_zero : ∀ {l : List (Circ A)}, deepList l = 0 → Wn l = 0
  | [], _ => rfl
  | x :: l, h => by
    rw [deepList] at h
    rw [Wn, if_pos (by omega), Wn_zero (by omega)]

theorem Wn_le_deep : ∀ l : List (Circ A), Wn l ≤ deepList l
  | [] => le_rfl
  | x :: l => by
    have := Wn_le_deep l
    rw [Wn, deepList]
    split <;> omega

/-- no larger -/
def leS (n : ℕ) (m l : List (Circ A)) : Prop :=
  (n = 1 ∨ (l ≠ [] → m ≠ [])) ∧ (deepList m < deepList l ∨ (deepList m = deepList l ∧ Wn m ≤ Wn l ∧ mu n m ≤ mu n l))

/-- smaller -/
def ltS (n : ℕ) (m l : List (Circ A)) : Prop :=
  (n = 1 ∨ (l ≠ [] → m ≠ [])) ∧ (deepList m < deepList l ∨ (deepList m = deepList l ∧ Wn m ≤ Wn l ∧ mu n m < mu n l))

/-- the number used for the induction -/
def kS (n : ℕ) (l : List (Circ A)) : ℕ ×ₗ ℕ := toLex (deepList l, mu n l)

theorem kS_lt {n : ℕ} {m l : List (Circ A)} : kS n m < kS n l ↔ deepList m < deepList l ∨ (deepList m = deepList l ∧ mu n m < mu n l) := by
  unfold kS
  rw [Prod.Lex.toLex_lt_toLex]

theorem kS_le {n : ℕ} {m l : List (Circ A)} : kS n m ≤ kS n l ↔ deepList m < deepList l ∨ (deepList m = deepList l ∧ mu n m ≤ mu n l) := by
  unfold kS
  rw [Prod.Lex.toLex_le_toLex]

theorem leS_trans {n : ℕ} {k l m : List (Circ A)} (h : leS n k l) (h' : leS n l m) : leS n k m := by
  obtain ⟨h1, h2⟩ := h
  obtain ⟨h3, h4⟩ := h'
  refine ⟨?_, by omega⟩
  rcases h1 with h1 | h1
  · exact .inl h1
  · rcases h3 with h3 | h3
    · exact .inl h3
    · exact .inr fun h => h1 (h3 h)

theorem leS_ltS {n : ℕ} {k l m : List (Circ A)} (h : leS n k l) (h' : ltS n l m) : ltS n k m := by
  obtain ⟨h1, h2⟩ := h
  obtain ⟨h3, h4⟩ := h'
  refine ⟨?_, by omega⟩
  rcases h1 with h1 | h1
  · exact .inl h1
  · rcases h3 with h3 | h3
    · exact .inl h3
    · exact .inr fun h => h1 (h3 h)

theorem mu_ctx (n : ℕ) (a b m : List (Circ A)) : mu n (a ++ m ++ b) = mu n a * Bs n ^ (Wn m + Wn b) + mu n m * Bs n ^ Wn b + mu n b := by
  rw [mu_append, mu_append, Nat.pow_add]
  ring

theorem mu_ctx_le {n : ℕ} {l m : List (Circ A)} (a b : List (Circ A)) (h1 : Wn m ≤ Wn l) (h2 : mu n m ≤ mu n l) : mu n (a ++ m ++ b) ≤ mu n (a ++ l ++ b) := by
  rw [mu_ctx, mu_ctx]
  have := Nat.mul_le_mul_left (mu n a) (Nat.pow_le_pow_right (Bs_pos n) (show Wn m + Wn b ≤ Wn l + Wn b by omega))
  have := Nat.mul_le_mul_right (Bs n ^ Wn b) h2
  omega

theorem mu_ctx_lt {n : ℕ} {l m : List (Circ A)} (a b : List (Circ A)) (h1 : Wn m ≤ Wn l) (h2 : mu n m < mu n l) : mu n (a ++ m ++ b) < mu n (a ++ l ++ b) := by
  rw [mu_ctx, mu_ctx]
  have := Nat.mul_le_mul_left (mu n a) (Nat.pow_le_pow_right (Bs_pos n) (show Wn m + Wn b ≤ Wn l + Wn b by omega))
  have := Nat.mul_lt_mul_of_pos_right h2 (Nat.pow_pos (n := Wn b) (Bs_pos n))
  omega

theorem decrS {n : ℕ} {k0 : ℕ ×ₗ ℕ} (hconv : ∀ x y : Circ A, PS n x → PS n y → kS n [x, y] ≤ k0 → ∃ f o, SR A f x y = .ok o ∧
    ∀ r, o = some r → (∀ z ∈ rest isId1 flatSeries r, PS n z) ∧ (rest isId1 flatSeries r).IsChain (NoRule (SR A)) ∧ ltS n (rest isId1 flatSeries r) [x, y]) :
    Decr (SR A) isId1 flatSeries (PS n) (leS n) (ltS n) (fun l => kS n l ≤ k0) (kS n) where
  mono := SR_mono
  conv := hconv
  le_refl l := ⟨.inr id, .inr ⟨rfl, le_rfl, le_rfl⟩⟩
  le_trans := leS_trans
  lt_le h := ⟨h.1, by have := h.2; omega⟩
  ctx := by
    rintro l m a b ⟨h1, h2⟩
    refine ⟨?_, ?_⟩
    · rcases h1 with h1 | h1
      · exact .inl h1
      · right
        intro h h'
        simp only [ne_eq, List.append_eq_nil_iff] at h h'
        obtain ⟨⟨ha, hl⟩, hb⟩ := h'
        refine h ⟨⟨ha, ?_⟩, hb⟩
        by_contra hm
        exact h1 hm hl
    · simp only [deepList_append, Wn_append]
      rcases h2 with h2 | ⟨h2, h3, h4⟩
      · left; omega
      · right
        exact ⟨by omega, by omega, mu_ctx_le a b h3 h4⟩
  key_ctx := by
    rintro l m a b ⟨h1, h2⟩
    rw [kS_lt]
    simp only [deepList_append]
    rcases h2 with h2 | ⟨h2, h3, h4⟩
    · left; omega
    · right
      exact ⟨by omega, mu_ctx_lt a b h3 h4⟩
  key_le h := kS_le.mpr (by have := h.2; omega)
  key_sub a b := by
    rw [kS_le, deepList_append]
    by_cases h : deepList b = 0
    · right
      refine ⟨by omega, ?_⟩
      rw [mu_append, Wn_zero h, Nat.pow_zero, Nat.mul_one]
      omega
    · left; omega
  bd_le h h' := (kS_le.mpr (by have := h.2; omega)).trans h'
  bd_left := by
    intro a b h
    refine le_trans ?_ h
    rw [kS_le, deepList_append]
    by_cases h : deepList b = 0
    · right
      refine ⟨by omega, ?_⟩
      rw [mu_append, Wn_zero h, Nat.pow_zero, Nat.mul_one]
      omega
    · left; omega
  bd_right := by
    intro a b h
    refine le_trans ?_ h
    rw [kS_le, deepList_append, mu_append]
    omega

/-- the operands of a simplified circuit -/
theorem rest_series {n : ℕ} {r : Circ A} (h : Gd r) (hn : r.cdim = n) : (∀ z ∈ rest isId1 flatSeries r, PS n z) ∧ (rest isId1 flatSeries r).IsChain (NoRule (SR A)) ∧
    deepList (rest isId1 flatSeries r) = deep r ∧ (rest isId1 flatSeries r = [] → n = 1) := by
  cases hi : isId1 r with
  | true =>
    have e := isId1_eq hi
    subst e
    have e : rest isId1 flatSeries (.id1 : Circ A) = [] := rfl
    rw [e]
    exact ⟨fun z hz => absurd hz (by simp), .nil, rfl, fun _ => hn.symm⟩
  | false =>
    rw [rest, if_neg (by simp [hi])]
    cases hf : flatSeries r with
    | none =>
      refine ⟨fun z hz => ?_, .singleton _, by simp [deepList], by simp⟩
      rw [List.mem_singleton.mp hz]
      refine ⟨h, hf, hn, ?_⟩
      rintro rfl
      cases hi
    | some m =>
      have e := flatSeries_eq hf
      subst e
      cases h with
      | series m k g1 g2 g3 g4 =>
        rw [Gd.series_cdim g1 fun c hc => (g3 c hc).2.1] at hn
        subst hn
        refine ⟨fun z hz => ⟨g2 z hz, g3 z hz⟩, g4, rfl, ?_⟩
        rintro h
        replace h : m = [] := h
        rw [h] at g1
        simp at g1

/-! ### the weights of the lists that occur -/

theorem wt_ge (n : ℕ) (z : Circ A) : n ^ n + 1 ≤ wt n z := by
  unfold wt
  split <;> omega

theorem wt_perm_le {n : ℕ} {p : List ℕ} (h : Reachable (.perm p)) (hn : p.length = n) : wt n (.perm p : Circ A) ≤ 2 * n ^ n := by
  have := rank_lt (n := n) p fun x hx => by
    rw [← hn]
    exact ((reachable_perm.mp h).1.mem_iff x).mp hx
  rw [hn] at this
  simp only [wt]
  omega

theorem wt_le {n : ℕ} {z : Circ A} (h : Gd z) (hn : z.cdim = n) : wt n z ≤ 2 * n ^ n + 1 := by
  cases h with
  | perm p hp =>
    have := wt_perm_le (A := A) hp hn
    omega
  | _ => exact le_rfl

theorem wt_eq {n : ℕ} {z : Circ A} (h : ∀ p, z ≠ .perm p) : wt n z = 2 * n ^ n + 1 := by
  cases z with
  | perm p => exact absurd rfl (h p)
  | _ => rfl

theorem deep_pos_wt {n : ℕ} {z : Circ A} (h : deep z ≠ 0) : wt n z = 2 * n ^ n + 1 := wt_eq (by rintro p rfl; exact h rfl)

/-- an operand without components is a permutation or an identity -/
theorem PS.zero {n : ℕ} {z : Circ A} (h : PS n z) (h0 : deep z = 0) : z = cid n ∨ ∃ p, z = .perm p := by
  obtain ⟨pc, -, -, e⟩ := zero_of_deep h.1 h0 h.2.1
  have hc := h.2.2.1
  subst e
  cases pc with
  | perm p => exact .inr ⟨p, rfl⟩
  | cid k =>
    left
    rw [ofPC_cdim] at hc
    rw [← hc]
    rfl

/-- the operands of a simple circuit weigh little -/
theorem mu_simple {n : ℕ} {r : Circ A} (h : Gd r) (hn : r.cdim = n) (hs : Simple r) :
    Wn (rest isId1 flatSeries r) ≤ 1 ∧ (deep r = 0 → Wn (rest isId1 flatSeries r) = 0 ∧ mu n (rest isId1 flatSeries r) ≤ 2 * n ^ n + 1) ∧
      mu n (rest isId1 flatSeries r) ≤ 4 * n ^ n + 1 := by
  obtain ⟨r1, -, r3, -⟩ := rest_series h hn
  cases hi : isId1 r with
  | true =>
    rw [isId1_eq hi]
    exact ⟨Nat.zero_le _, fun _ => ⟨rfl, Nat.zero_le _⟩, Nat.zero_le _⟩
  | false =>
    rw [rest, if_neg (by simp [hi])] at r1 r3 ⊢
    cases hf : flatSeries r with
    | none =>
      have := wt_le h hn
      simp only [Option.getD_none, Wn, mu, Nat.pow_zero, Nat.mul_one, Nat.add_zero]
      refine ⟨by split <;> omega, fun h0 => ⟨if_pos h0, this⟩, by omega⟩
    | some l =>
      rw [hf] at r1 r3
      obtain ⟨x, q, rfl, hx⟩ := hs l hf
      simp only [Option.getD_some] at r1 r3 ⊢
      have px := r1 x (by simp)
      have pq := r1 (.perm q) (by simp)
      have dx : deep x ≠ 0 := fun h0 => hx (zero_of_deep px.1 h0 px.2.1)
      have hw := wt_le px.1 px.2.2.1
      have hq : wt n (.perm q : Circ A) ≤ 2 * n ^ n := by
        have := pq.1
        cases this with
        | perm _ hq => exact wt_perm_le hq pq.2.2.1
      have d0 : deep (.perm q : Circ A) = 0 := rfl
      simp only [Wn, mu, d0, if_true, Nat.pow_zero, Nat.mul_one, Nat.add_zero]
      refine ⟨by split <;> omega, fun h0 => ?_, by omega⟩
      rw [← r3, deepList] at h0
      omega

/-- the rule for block structures: the result is smaller -/
theorem tensor_lt {n : ℕ} {x y r : Circ A} (hx : PS n x) (hy : PS n y) (hp : ∀ q, y ≠ .perm q) (h : Gd r) (hn : r.cdim = n)
    (hd : deep r < deep x + deep y ∨ (deep r ≤ deep x + deep y ∧ Simple r)) : ltS n (rest isId1 flatSeries r) [x, y] := by
  obtain ⟨r1, -, r3, r4⟩ := rest_series h hn
  have hm : mu n [x, y] = wt n x * Bs n ^ (if deep y = 0 then 0 else 1) + wt n y := by simp [mu, Wn]
  have hW : Wn [x, y] = (if deep x = 0 then 0 else 1) + (if deep y = 0 then 0 else 1) := by simp [Wn]
  have hD : deepList [x, y] = deep x + deep y := by simp [deepList]
  refine ⟨?_, ?_⟩
  · by_cases h1 : n = 1
    · exact .inl h1
    · exact .inr fun _ h => h1 (r4 h)
  rw [r3, hD]
  rcases Nat.lt_or_ge (deep r) (deep x + deep y) with h1 | h1
  · exact .inl h1
  · right
    have hs : Simple r := by rcases hd with hd | hd; omega; exact hd.2
    have he : deep r = deep x + deep y := by rcases hd with hd | hd <;> omega
    obtain ⟨m1, m2, m3⟩ := mu_simple h hn hs
    have wy := wt_eq (n := n) hp
    have wx := wt_ge n x
    refine ⟨he, ?_⟩
    rw [hW, hm, wy]
    by_cases dy : deep y = 0
    · rw [if_pos dy, Nat.pow_zero]
      by_cases dx : deep x = 0
      · obtain ⟨m4, m5⟩ := m2 (by omega)
        rw [m4]
        omega
      · rw [if_neg dx, deep_pos_wt dx]
        omega
    · rw [if_neg dy, Nat.pow_one]
      have : (n ^ n + 1) * Bs n ≤ wt n x * Bs n := Nat.mul_le_mul_right _ wx
      have h2 : Bs n ≤ (n ^ n + 1) * Bs n := Nat.le_mul_of_pos_left _ (by omega)
      have h3 : Bs n = 6 * n ^ n + 10 := rfl
      refine ⟨by omega, by omega⟩

end QNET.Circuit
