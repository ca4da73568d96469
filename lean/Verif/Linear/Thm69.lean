import Verif.Linear.Realize

/-! # C69: physical realizability and displacements -/

namespace QNET.Linear

open Finset
open QNET.Perm (Res Err)
open QNET.QAlg (QX Ctx val SoundCtx mapVal)
open QNET.SLH (getCoeffs coeffOf)

variable {A : Type} [Ring A] [StarRing A] [Algebra ℂ A]

theorem triple_n (ρ : ℕ → A) (S : List (List (QX ℂ))) (Ls : List (QX ℂ)) (H : QX ℂ) : (triple ρ S Ls H).n = S.length := rfl

theorem getD_linear {m n : ℕ} {l : List (QX ℂ)} (h : ∀ e ∈ l, LinearX m n e) (j : ℕ) (hj : j < l.length) : LinearX m n (l[j]?.getD .zero) := by
  rw [List.getElem?_eq_getElem hj, Option.getD_some]
  exact h _ (List.getElem_mem hj)

theorem smul_one_inj {m n : ℕ} {ρ : ℕ → A} (hI : Indep m n ρ) {z w : ℂ} (h : z • (1 : A) = w • 1) : z = w := by
  refine sub_eq_zero.mp (hI (z - w) (fun _ => 0) (fun _ => 0) (fun _ => 0) (fun _ => 0) ?_).1
  simp [sub_smul, h]

/-- C69: for a physical linear system (unitary scattering matrix, Hermitian Hamiltonian that is at most quadratic in the modes, coupling operators that are
linear in the modes), the doubled-up arrays satisfy the conditions for physical realizability (James, Nurdin, Petersen): the canonical commutation relations
are preserved by the dynamics, `A J + J A† + B J B† = 0`, and by the input/output relation, `J C† + B J D† = 0` and `D J D† = J`. -/
theorem C69_realizable [StarModule ℂ A] {ρ : ℕ → A} {Γ : Ctx ℂ} {fuel : ℕ} {S : List (List (QX ℂ))} {Ls eoms : List (QX ℂ)} {H : QX ℂ} {r : ABCD}
    (hΓ : SoundCtx Γ ρ) (hρ : Modes eoms.length S.length ρ) (hI : Indep eoms.length S.length ρ) (hr : getABCD Γ fuel S Ls eoms true = .ok r)
    (hphys : SLH.Physical (triple ρ S Ls H))
    (hH : ∀ j, j < eoms.length → ∃ (ν : ℂ) (M N : ℕ → ℂ), Complex.I • (val ρ H * ρ (5 * j) - ρ (5 * j) * val ρ H)
      = ν • (1 : A) + ∑ k ∈ range eoms.length, M k • ρ (5 * k) + ∑ k ∈ range eoms.length, N k • star (ρ (5 * k)))
    (hL : ∀ i, i < S.length → LinearX eoms.length 0 (Ls[i]?.getD .zero)) (hE : ∀ e ∈ eoms, LinearX eoms.length S.length e)
    (heom : ∀ j, j < eoms.length → EomAt ρ S Ls H j (eoms[j]?.getD .zero)) :
    (∀ i k, i < 2 * eoms.length → k < 2 * eoms.length → r.A i k * J eoms.length k + J eoms.length i * star (r.A k i)
      + ∑ l ∈ range (2 * S.length), r.B i l * J S.length l * star (r.B k l) = 0) ∧
    (∀ i k, i < 2 * eoms.length → k < 2 * S.length → J eoms.length i * star (r.C k i) + ∑ l ∈ range (2 * S.length), r.B i l * J S.length l * star (r.D k l) = 0) ∧
    (∀ i k, i < 2 * S.length → k < 2 * S.length → ∑ l ∈ range (2 * S.length), r.D i l * J S.length l * star (r.D k l) = if i = k then J S.length i else 0) := by
  obtain ⟨d, hd, rfl⟩ := getABCD_ok hr
  simp only [arrays, if_true]
  have hn := triple_n ρ S Ls H
  choose! ν M N hH using hH
  have hS : ∀ i j, i < (triple ρ S Ls H).n → j < (triple ρ S Ls H).n → (triple ρ S Ls H).S i j = entry d i j • (1 : A) := by
    intro i j hi hj
    rw [← entry_val hΓ hd]
    exact if_pos ⟨hi, hj⟩
  have hu : ∀ i l, i < S.length → l < S.length → ∑ k ∈ range S.length, entry d i k * star (entry d l k) = if i = l then 1 else 0 := by
    intro i l hi hl
    have h1 := hphys.2.1 i l hi hl
    rw [hn, Finset.sum_congr rfl (g := fun k => (entry d i k * star (entry d l k)) • (1 : A)), ← Finset.sum_smul] at h1
    · have h2 : (if i = l then (1 : A) else 0) = (if i = l then (1 : ℂ) else 0) • (1 : A) := by split <;> simp
      rw [h2] at h1
      exact smul_one_inj hI h1
    · intro k hk
      rw [hS i k hi (mem_range.mp hk), hS l k hl (mem_range.mp hk), star_smul, star_one, smul_mul_smul_comm, mul_one]
  have hρ0 : Modes eoms.length 0 ρ := ⟨hρ.crea, by omega, hρ.aa, hρ.ccr, by omega, by omega⟩
  have hLl : ∀ i, i < (triple ρ S Ls H).n → (triple ρ S Ls H).L i
      = lin eoms.length 0 ρ (coef Ls (fun _ => .one) i 0) (coef Ls dest i) (coef Ls crea i) (fun _ => 0) (fun _ => 0) := by
    intro i hi
    have h1 : (triple ρ S Ls H).L i = val ρ (Ls[i]?.getD .zero) := if_pos hi
    rw [h1, linear_val hρ0 (hL i hi)]
    simp [lin, coef]
  have hHl : ∀ j, j < eoms.length → Complex.I • ((triple ρ S Ls H).H * ρ (5 * j) - ρ (5 * j) * (triple ρ S Ls H).H)
      = lin eoms.length 0 ρ (ν j) (M j) (N j) (fun _ => 0) (fun _ => 0) := by
    intro j hj
    rw [show (triple ρ S Ls H).H = val ρ H from rfl, hH j hj]
    simp [lin]
  have hHn : ∀ j, j < eoms.length → Complex.I • (val ρ H * ρ (5 * j) - ρ (5 * j) * val ρ H)
      = lin eoms.length S.length ρ (ν j) (M j) (N j) (fun _ => 0) (fun _ => 0) := by
    intro j hj
    rw [hH j hj]
    simp [lin]
  have hMN := hamilton_coef hρ hI (H := val ρ H) hphys.2.2 hHn
  have key : ∀ j, j < eoms.length → _ := fun j hj => hI.unique ((linear_val hρ (getD_linear hE j hj)).symm.trans ((heom j hj).trans (eom_lin hρ hS hLl hj (hHl j hj))))
  have hpB : ∀ j l, j < eoms.length → l < S.length → coef eoms nois j l = -∑ k ∈ range S.length, star (coef Ls dest k j) * entry d k l :=
    fun j l hj hl => ((key j hj).2.2 l hl).1
  have hqB : ∀ j l, j < eoms.length → l < S.length → coef eoms noid j l = ∑ k ∈ range S.length, star (entry d k l) * coef Ls crea k j :=
    fun j l hj hl => ((key j hj).2.2 l hl).2
  refine ⟨?_, ?_, ?_⟩
  · exact realize_A hu hpB hqB (M := M) (N := N) (fun j l hj hl => (hMN j l hj hl).1) (fun j l hj hl => (hMN j l hj hl).2)
      (fun j l hj hl => ((key j hj).2.1 l hl).1) (fun j l hj hl => ((key j hj).2.1 l hl).2)
  · exact realize_C hu hpB hqB
  · exact realize_D hu

/-! ### Displacements -/

mutual
theorem displace_val (α : ℕ → Option ℂ) (ρ : ℕ → A) : ∀ e : QX ℂ, val ρ (displace α e) = val (displaced α ρ) e
  | .atom s => by
    rw [displace, QAlg.val, displaced]
    rcases h : α (s / 5) with _ | z
    · simp [QAlg.val]
    · simp only [Option.getD_some]
      split
      · simp [QAlg.val, QAlg.vals]
      · split <;> simp [QAlg.val, QAlg.vals]
  | .zero => by simp [displace, QAlg.val]
  | .one => by simp [displace, QAlg.val]
  | .scal c t => by simp [displace, QAlg.val, displace_val α ρ t]
  | .plus l => by simp [displace, QAlg.val, displaceL_val α ρ l]
  | .times l => by simp [displace, QAlg.val, displaceL_val α ρ l]
  | .comm a b => by simp [displace, QAlg.val, displace_val α ρ a, displace_val α ρ b]
theorem displaceL_val (α : ℕ → Option ℂ) (ρ : ℕ → A) : ∀ l : List (QX ℂ), QAlg.vals ρ (displaceL α l) = QAlg.vals (displaced α ρ) l
  | [] => rfl
  | x :: l => by simp [displaceL, QAlg.vals, displace_val α ρ x, displaceL_val α ρ l]
end

theorem displaced_0 (α : ℕ → Option ℂ) (ρ : ℕ → A) (k : ℕ) : displaced α ρ (5 * k) = ρ (5 * k) + ((α k).getD 0) • 1 := by
  rw [displaced, if_pos (by omega), show 5 * k / 5 = k by omega]
theorem displaced_1 (α : ℕ → Option ℂ) (ρ : ℕ → A) (k : ℕ) : displaced α ρ (5 * k + 1) = ρ (5 * k + 1) + (star ((α k).getD 0)) • 1 := by
  rw [displaced, if_neg (by omega), if_pos (by omega), show (5 * k + 1) / 5 = k by omega]
theorem displaced_2 (α : ℕ → Option ℂ) (ρ : ℕ → A) (k : ℕ) : displaced α ρ (5 * k + 2) = ρ (5 * k + 2) := by
  rw [displaced, if_neg (by omega), if_neg (by omega)]
theorem displaced_3 (α : ℕ → Option ℂ) (ρ : ℕ → A) (k : ℕ) : displaced α ρ (5 * k + 3) = ρ (5 * k + 3) := by
  rw [displaced, if_neg (by omega), if_neg (by omega)]

theorem star_smul_one [StarModule ℂ A] (z : ℂ) : star (z • (1 : A)) = star z • 1 := by rw [star_smul, star_one]

/-- displaced operators satisfy the same commutation relations -/
theorem Modes.displaced [StarModule ℂ A] {m n : ℕ} {ρ : ℕ → A} (h : Modes m n ρ) (α : ℕ → Option ℂ) : Modes m n (displaced α ρ) where
  crea k hk := by rw [displaced_1, displaced_0, star_add, star_smul_one, h.crea k hk]
  noid k hk := by rw [displaced_3, displaced_2, h.noid k hk]
  aa j k hj hk := by
    simp only [displaced_0, add_mul, mul_add, h.aa j k hj hk, smul_mul_assoc, mul_smul_comm, one_mul, mul_one]
    module
  ccr j k hj hk := by
    rw [← h.ccr j k hj hk]
    simp only [displaced_0, star_add, star_smul_one, add_mul, mul_add, smul_mul_assoc, mul_smul_comm, one_mul, mul_one]
    module
  ba j k hj hk := by
    simp only [displaced_0, displaced_2, add_mul, mul_add, h.ba j k hj hk, smul_mul_assoc, mul_smul_comm, one_mul, mul_one]
  ba' j k hj hk := by
    simp only [displaced_0, displaced_2, star_add, star_smul_one, add_mul, mul_add, h.ba' j k hj hk, smul_mul_assoc, mul_smul_comm, one_mul, mul_one]

/-- a displaced observable has the same equation of motion -/
theorem heisenbergNoise_shift (T : SLH A) (X : A) (z : ℂ) (b : ℕ → A) : SLH.heisenbergNoise T false (X + z • 1) b = SLH.heisenbergNoise T false X b := by
  have h1 : ∀ Y : A, Y * (X + z • 1) - (X + z • 1) * Y = Y * X - X * Y := by
    intro Y
    simp only [mul_add, add_mul, mul_smul_comm, smul_mul_assoc, mul_one, one_mul]
    abel
  have h2 : ∀ Y : A, (X + z • 1) * Y - Y * (X + z • 1) = X * Y - Y * X := by
    intro Y
    simp only [mul_add, add_mul, mul_smul_comm, smul_mul_assoc, mul_one, one_mul]
    abel
  have h3 : ∀ L : A, star L * (X + z • 1) * L + -((1 / 2 : ℂ) • (star L * L * (X + z • 1) + (X + z • 1) * star L * L))
      = star L * X * L + -((1 / 2 : ℂ) • (star L * L * X + X * star L * L)) := by
    intro L
    simp only [mul_add, add_mul, mul_smul_comm, smul_mul_assoc, mul_one, one_mul]
    module
  simp only [SLH.heisenbergNoise, SLH.heisenberg, h1, h2, h3, Bool.false_eq_true, if_false]

theorem lin_displaced [StarModule ℂ A] (m n : ℕ) (ρ : ℕ → A) (α : ℕ → Option ℂ) (c : ℂ) (p q r s : ℕ → ℂ) :
    lin m n (displaced α ρ) c p q r s
      = lin m n ρ (c + (∑ k ∈ range m, p k * (α k).getD 0 + ∑ k ∈ range m, q k * star ((α k).getD 0))) p q r s := by
  simp only [lin, displaced_0, displaced_2, star_add, star_smul_one, smul_add, Finset.sum_add_distrib, add_smul, Finset.sum_smul, smul_smul]
  abel

/-- the amplitudes of the modes and their conjugates -/
noncomputable def amps (m : ℕ) (α : ℕ → Option ℂ) (k : ℕ) : ℂ := if k < m then (α k).getD 0 else star ((α (k - m)).getD 0)

theorem blkV_amps {r m : ℕ} {c c' : ℕ → ℂ} {p q : ℕ → ℕ → ℂ} {α : ℕ → Option ℂ}
    (h : ∀ i, i < r → c' i = c i + (∑ k ∈ range m, p i k * (α k).getD 0 + ∑ k ∈ range m, q i k * star ((α k).getD 0))) (i : ℕ) (hi : i < 2 * r) :
    blkV r c' i = blkV r c i + ∑ k ∈ range (2 * m), blk r m p q i k * amps m α k := by
  have a1 : ∀ k ∈ range m, amps m α k = (α k).getD 0 := fun k hk => if_pos (mem_range.mp hk)
  have a2 : ∀ k, amps m α (k + m) = star ((α k).getD 0) := fun k => by simp [amps]
  rw [sum_two]
  by_cases h1 : i < r
  · rw [blkV, blkV, if_pos h1, if_pos h1, h i h1, Finset.sum_congr rfl (fun k hk => by rw [blk_11 h1 (mem_range.mp hk), a1 k hk] :
      ∀ k ∈ range m, blk r m p q i k * amps m α k = p i k * (α k).getD 0)]
    simp only [blk_12 h1, a2]
  · obtain ⟨i, rfl⟩ : ∃ i', i = i' + r := ⟨i - r, by omega⟩
    rw [blkV, blkV, if_neg h1, if_neg h1, Nat.add_sub_cancel, h i (by omega), Finset.sum_congr rfl (fun k hk => by rw [blk_21 (mem_range.mp hk), a1 k hk] :
      ∀ k ∈ range m, blk r m p q (i + r) k * amps m α k = star (q i k) * (α k).getD 0)]
    simp only [blk_22, a2, star_add, star_sum, star_mul', star_star]
    rw [add_comm (∑ k ∈ range m, star (p i k) * _)]

theorem blk_congr {r k : ℕ} {p q p' q' : ℕ → ℕ → ℂ} (h : ∀ i j, i < r → j < k → p' i j = p i j ∧ q' i j = q i j) (i j : ℕ) (hi : i < 2 * r) (hj : j < 2 * k) :
    blk r k p' q' i j = blk r k p q i j := by
  unfold blk
  split <;> split
  · exact (h _ _ (by omega) (by omega)).1
  · exact (h _ _ (by omega) (by omega)).2
  · rw [(h _ _ (by omega) (by omega)).2]
  · rw [(h _ _ (by omega) (by omega)).1]

theorem getD_map {α β : Type} (f : α → β) (l : List α) (i : ℕ) (d : α) (d' : β) (h : f d = d') : (l.map f)[i]?.getD d' = f (l[i]?.getD d) := by
  rw [List.getElem?_map]
  cases l[i]? <;> simp [h]

/-- the displaced system, with the displaced operators, is the system with the shifted operators -/
theorem triple_displace (α : ℕ → Option ℂ) (ρ : ℕ → A) (S : List (List (QX ℂ))) (Ls : List (QX ℂ)) (H : QX ℂ) :
    triple ρ (S.map (List.map (displace α))) (Ls.map (displace α)) (displace α H) = triple (displaced α ρ) S Ls H := by
  have hz : displace α .zero = .zero := by simp [displace]
  unfold triple
  rw [List.length_map, displace_val]
  congr 1
  · funext i j
    rw [getD_map _ _ _ [] [] rfl, getD_map _ _ _ QX.zero QX.zero hz, displace_val]
  · funext i
    rw [getD_map _ _ _ QX.zero QX.zero hz, displace_val]

/-- C69: displacing a linear system (`a0`) does not change `A`, `B`, `C` and `D`; the constant vectors change to `a + A α` and `c + C α`, where `α` are the
amplitudes and their conjugates. The displaced coupling operators are expanded, and the equations of motion are those of the displaced system. -/
theorem C69_displaced [StarModule ℂ A] {ρ : ℕ → A} {Γ : Ctx ℂ} {fuel : ℕ} {S : List (List (QX ℂ))} {Ls Ls' eoms eoms' : List (QX ℂ)} {H : QX ℂ} {r r' : ABCD}
    (α : ℕ → Option ℂ) (hΓ : SoundCtx Γ ρ) (hρ : Modes eoms.length S.length ρ) (hI : Indep eoms.length S.length ρ)
    (hr : getABCD Γ fuel S Ls eoms true = .ok r) (hr' : getABCD Γ fuel S Ls' eoms' true = .ok r') (hlen : eoms'.length = eoms.length)
    (hL : ∀ i, i < S.length → LinearX eoms.length 0 (Ls[i]?.getD .zero)) (hE : ∀ e ∈ eoms, LinearX eoms.length S.length e)
    (hL' : ∀ i, i < S.length → LinearX eoms.length 0 (Ls'[i]?.getD .zero)) (hE' : ∀ e ∈ eoms', LinearX eoms.length S.length e)
    (hexp : (Ls.map (displace α)).mapM (QAlg.expand Γ fuel) = .ok Ls')
    (heom : ∀ j, j < eoms.length → EomAt (displaced α ρ) S Ls H j (eoms[j]?.getD .zero))
    (heom' : ∀ j, j < eoms.length → EomAt ρ (S.map (List.map (displace α))) (Ls.map (displace α)) (displace α H) j (eoms'[j]?.getD .zero)) :
    (∀ i k, i < 2 * eoms.length → k < 2 * eoms.length → r'.A i k = r.A i k) ∧ (∀ i k, i < 2 * eoms.length → k < 2 * S.length → r'.B i k = r.B i k) ∧
    (∀ i k, i < 2 * S.length → k < 2 * eoms.length → r'.C i k = r.C i k) ∧ (∀ i k, r'.D i k = r.D i k) ∧
    (∀ i, i < 2 * eoms.length → r'.a i = r.a i + ∑ k ∈ range (2 * eoms.length), r.A i k * amps eoms.length α k) ∧
    (∀ i, i < 2 * S.length → r'.c i = r.c i + ∑ k ∈ range (2 * eoms.length), r.C i k * amps eoms.length α k) := by
  obtain ⟨d, hd, rfl⟩ := getABCD_ok hr
  obtain ⟨d', hd', rfl⟩ := getABCD_ok hr'
  rw [hd] at hd'
  cases hd'
  simp only [arrays, if_true, hlen]
  have hE2 : ∀ j, j < eoms.length → LinearX eoms.length S.length (eoms'[j]?.getD .zero) := fun j hj => getD_linear hE' j (by omega)
  have key : ∀ j, j < eoms.length → _ := fun j hj => hI.unique ((linear_val hρ (hE2 j hj)).symm.trans (show val ρ (eoms'[j]?.getD .zero) = _ from by
    rw [heom' j hj, triple_displace, ← heisenbergNoise_shift _ _ ((α j).getD 0), ← displaced_0]
    have h1 : (fun k => ρ (5 * k + 2)) = fun k => displaced α ρ (5 * k + 2) := funext (fun k => (displaced_2 α ρ k).symm)
    rw [h1, ← heom j hj, linear_val (hρ.displaced α) (getD_linear hE j hj), lin_displaced]))
  have hρ0 : Modes eoms.length 0 ρ := ⟨hρ.crea, by omega, hρ.aa, hρ.ccr, by omega, by omega⟩
  have hI0 : Indep eoms.length 0 ρ := by
    intro c p q r s h
    have := hI c p q (fun _ => 0) (fun _ => 0) (by simpa using h)
    exact ⟨this.1, this.2.1, by omega⟩
  have hLv : ∀ i : ℕ, val ρ (Ls'[i]?.getD .zero) = val (displaced α ρ) (Ls[i]?.getD .zero) := by
    have h2 := Indexed.mapM_ok_forall₂ hexp
    rw [List.forall₂_map_left_iff] at h2
    clear hexp hL hL' hr hr' key hE2 heom heom' hE hE'
    induction h2 with
    | nil => intro i; simp [QAlg.val]
    | cons h3 _ ih =>
      intro i
      cases i with
      | zero => simp only [List.getElem?_cons_zero, Option.getD_some]; rw [QAlg.expand_val hΓ _ _ _ h3, displace_val]
      | succ i => simpa using ih i
  have key2 : ∀ i, i < S.length → _ := fun i hi => hI0.unique ((linear_val hρ0 (hL' i hi)).symm.trans (show val ρ (Ls'[i]?.getD .zero) = _ from by
    rw [hLv i, linear_val (hρ0.displaced α) (hL i hi), lin_displaced]))
  refine ⟨?_, ?_, ?_, fun _ _ => trivial, ?_, ?_⟩
  · exact blk_congr (fun i j hi hj => (key i hi).2.1 j hj)
  · exact blk_congr (fun i j hi hj => (key i hi).2.2 j hj)
  · exact blk_congr (fun i j hi hj => (key2 i hi).2.1 j hj)
  · exact blkV_amps (fun i hi => (key i hi).1)
  · exact blkV_amps (fun i hi => (key2 i hi).1)

end QNET.Linear
