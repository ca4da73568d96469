import Verif.Scalar.Thm
import Verif.Engine.Term
import Verif.QAlg.Term
import Mathlib.Data.Prod.Lex
import Mathlib.Data.List.Count

/-!
# Scalar arithmetic always succeeds

For scalars without division by zero, sums, products and powers are computed without exception, for every sufficiently large recursion limit.
-/

namespace QNET.Scalar

open QNET.Perm (Res Err)
open QNET.Engine (Ev Ev2 Decreasing repl matchReplaceBinary_ev)
open QNET.QAlg (ev_bind ev_const ev_congr ev_mapM)
open QNET.Indexed (Except.bind_ok)

variable {K : Type} [Field K] [DecidableEq K] {L : Type} [Field L] [Algebra K L] {ρ : ℕ → L}

/-- the same context with another recursion limit -/
def Ctx.limit (Γ : Ctx K) (n : ℕ) : Ctx K := { Γ with fuel := n }

/-! ### powers -/

theorem powCreate_total : ∀ (x : SX K) (e : ℤ), Def ρ x → (e < 0 → sval ρ x ≠ 0) → ∃ r, powCreate x e = .ok r := by
  have gen : ∀ (x : SX K) (e : ℤ), ∃ r, (if e = 0 then (Except.ok SX.one : Res (SX K)) else if e = 1 then .ok x else .ok (.pow x e)) = .ok r := by
    intro x e; split; exact ⟨_, rfl⟩; split <;> exact ⟨_, rfl⟩
  intro x
  induction x using SX.rec (motive_2 := fun _ => True) with
  | val k =>
    intro e _ he
    simp only [powCreate]
    split
    · rename_i h
      exact absurd (by rw [sval, h.1, map_zero]) (he h.2)
    · exact ⟨_, rfl⟩
  | pow x y ih =>
    intro z hd he
    simp only [Def] at hd
    unfold powCreate
    split
    · exact ⟨_, rfl⟩
    · split
      · exact ⟨_, rfl⟩
      · rename_i hz0 hz1
        have hneg : y * z < 0 → sval ρ x ≠ 0 := by
          intro hyz h0
          rcases lt_or_ge y 0 with hy | hy
          · exact hd.2 hy h0
          · have hz : z < 0 := by
              by_contra hz
              exact absurd (mul_nonneg hy (not_lt.mp hz)) (not_le.mpr hyz)
            have hy0 : y ≠ 0 := by rintro rfl; simp at hyz
            exact he hz (by rw [sval, h0, zero_zpow _ hy0])
        split
        · split
          · rename_i h
            exact absurd (by simp [sval]) (hneg h)
          · exact ⟨_, rfl⟩
        · exact ⟨_, rfl⟩
        · exact ih (y * z) hd.1 hneg
  | zero => intro e _ _; exact gen _ e
  | one => intro e _ _; exact gen _ e
  | sym a => intro e _ _; exact gen _ e
  | plus l _ => intro e _ _; exact gen _ e
  | times l _ => intro e _ _; exact gen _ e
  | nil => trivial
  | cons _ _ _ _ => trivial

theorem powS_total {x : SX K} {e : ℤ} (hx : Def ρ x) (he : e < 0 → sval ρ x ≠ 0) : ∃ r, powS x e = .ok r := by
  unfold powS
  split
  · split
    · rename_i h; exact absurd (by simp [sval]) (he h)
    · exact ⟨_, rfl⟩
  · exact ⟨_, rfl⟩
  · rename_i b e0
    simp only [Def] at hx
    refine powCreate_total b _ hx.1 fun hneg h0 => ?_
    rcases lt_or_ge e0 0 with hy | hy
    · exact hx.2 hy h0
    · have hz : e < 0 := by
        by_contra hz
        exact absurd (mul_nonneg hy (not_lt.mp hz)) (not_le.mpr hneg)
      have hy0 : e0 ≠ 0 := by rintro rfl; simp at hneg
      exact he hz (by rw [sval, h0, zero_zpow _ hy0])
  · exact powCreate_total x e hx he

/-! ### the measure -/

mutual
/-- size of a scalar -/
def sz : SX K → ℕ
  | .zero => 1
  | .one => 1
  | .val _ => 1
  | .sym _ => 2
  | .plus l => 2 + szs l
  | .times l => 2 + szs l
  | .pow b _ => sz b + 1
/-- size of a list of scalars -/
def szs : List (SX K) → ℕ
  | [] => 0
  | x :: l => sz x + szs l
end

omit [Field K] [DecidableEq K] in
theorem sz_pos (x : SX K) : 1 ≤ sz x := by cases x <;> simp only [sz] <;> omega

omit [Field K] [DecidableEq K] in
theorem szs_append (l m : List (SX K)) : szs (l ++ m) = szs l + szs m := by
  induction l with
  | nil => simp [szs]
  | cons x l ih => simp [szs, ih, Nat.add_assoc]

theorem sz_create (k : K) : sz (create k) = 1 := by unfold create; split; rfl; split <;> rfl

theorem sz_powCreate : ∀ (x : SX K) (e : ℤ) (r : SX K), powCreate x e = .ok r → sz r ≤ sz x + 1 := by
  have gen : ∀ (x : SX K) (e : ℤ) (r : SX K), (if e = 0 then (Except.ok SX.one : Res (SX K)) else if e = 1 then .ok x else .ok (.pow x e)) = .ok r →
      sz r ≤ sz x + 1 := by
    intro x e r h
    split at h
    · cases h; simp [sz]
    · split at h <;> cases h <;> simp [sz]
  intro x
  induction x using SX.rec (motive_2 := fun _ => True) with
  | val k =>
    intro e r h
    simp only [powCreate] at h
    split at h
    · cases h
    · cases h; rw [sz_create]; simp [sz]
  | pow x y ih =>
    intro z r h
    unfold powCreate at h
    split at h
    · cases h; simp [sz]
    · split at h
      · cases h; simp [sz]
      · split at h
        · split at h
          · cases h
          · cases h; rw [sz_create]; simp [sz]
        · cases h; simp [sz]
        · have := ih _ r h
          simp only [sz]; omega
  | zero => intro e r h; exact gen _ e r h
  | one => intro e r h; exact gen _ e r h
  | sym a => intro e r h; exact gen _ e r h
  | plus l _ => intro e r h; exact gen _ e r h
  | times l _ => intro e r h; exact gen _ e r h
  | nil => trivial
  | cons _ _ _ _ => trivial

theorem sz_powS {x r : SX K} {e : ℤ} (h : powS x e = .ok r) : sz r ≤ sz x + 1 := by
  unfold powS at h
  split at h
  · split at h
    · cases h
    · cases h; rw [sz_create]; simp [sz]
  · cases h; simp [sz]
  · have := sz_powCreate _ _ _ h
    simp only [sz]; omega
  · exact sz_powCreate _ _ _ h

/-- sizes of wrapped values and powers of them -/
theorem sz_powS_small {x r : SX K} (hx : sz x < 2) (h : powS x 2 = .ok r) : sz r = 1 := by
  cases x with
  | zero => simp only [powS] at h; cases h; exact sz_create _
  | one => simp only [powS] at h; cases h; rfl
  | val k =>
    simp only [powS, powCreate] at h
    split at h
    · cases h
    · cases h; exact sz_create _
  | sym a => simp [sz] at hx
  | plus l => simp only [sz] at hx; omega
  | times l => simp only [sz] at hx; omega
  | pow b e => simp only [sz] at hx; have := sz_pos b; omega

theorem binRule_sz {x y r : SX K} (h : binRule x y = .ok (some r)) : sz r < sz x + sz y := by
  have hx := sz_pos x
  have hy := sz_pos y
  have hpow : ∀ {x y : SX K}, scEq x y = true → (powS x 2).map some = .ok (some r) → sz r < sz x + sz y := by
    intro x y he h
    obtain ⟨r', h1, h2⟩ := QNET.Indexed.Except.map_ok h
    injection h2 with h2
    subst h2
    have hx := sz_pos x
    have hy := sz_pos y
    rcases Nat.lt_or_ge (sz x) 2 with hs | hs
    · rw [sz_powS_small hs h1]; omega
    · have h3 := sz_powS h1
      have hxy : x = y := by
        unfold scEq at he
        simp only [Bool.or_eq_true, Bool.and_eq_true, decide_eq_true_eq] at he
        rcases he with (he | he) | he
        · exact he
        · exact absurd hs (by cases x <;> simp [isZero] at he <;> simp [sz])
        · exact absurd hs (by cases x <;> simp [isOne] at he <;> simp [sz])
      subst hxy
      omega
  unfold binRule at h
  split at h
  · cases h; rw [sz_create]; omega
  · split at h
    · rename_i he; exact hpow he h
    · split at h
      · cases h; simp only [sz]; omega
      · split at h
        · rename_i b e c f _ _ _
          split at h
          · rename_i hbc
            subst hbc
            obtain ⟨r', h1, h2⟩ := QNET.Indexed.Except.map_ok h
            injection h2 with h2
            subst h2
            have := sz_powS h1
            simp only [sz]; omega
          · split at h
            · cases h; simp only [sz]; omega
            · cases h
        · split at h
          · cases h; simp only [sz] at *; omega
          · cases h
        · cases h

theorem binRule_total {x y : SX K} (hx : Def ρ x) (hy : Def ρ y) : ∃ o, binRule x y = .ok o := by
  have hp : ∀ {x : SX K}, Def ρ x → ∃ o, (powS x 2).map some = .ok o := by
    intro x hx
    obtain ⟨r, h⟩ := powS_total (e := 2) hx (by norm_num)
    exact ⟨some r, by rw [h]; rfl⟩
  unfold binRule
  split
  · exact ⟨_, rfl⟩
  · split
    · exact hp hx
    · split
      · exact ⟨_, rfl⟩
      · split
        · rename_i b e c f _ _ _
          split
          · rename_i hbc
            subst hbc
            simp only [Def] at hx hy
            obtain ⟨r, h⟩ := powS_total (e := e + f) hx.1 (by
              intro hneg
              rcases lt_or_ge e 0 with he | he
              · exact hx.2 he
              · exact hy.2 (by omega))
            exact ⟨some r, by rw [h]; rfl⟩
          · split <;> exact ⟨_, rfl⟩
        · split <;> exact ⟨_, rfl⟩
        · exact ⟨_, rfl⟩

/-! ### products -/

open Classical in
/-- number of undefined operands, then size -/
noncomputable def meas (ρ : ℕ → L) (l : List (SX K)) : ℕ ×ₗ ℕ := toLex (l.countP (fun x => decide (¬ Def ρ x)), szs l)

theorem meas_def {ρ : ℕ → L} {l : List (SX K)} (h : ∀ x ∈ l, Def ρ x) : meas ρ l = toLex (0, szs l) := by
  classical
  unfold meas
  congr 2
  rw [List.countP_eq_zero]
  intro x hx
  simpa using h x hx

theorem def_of_meas {ρ : ℕ → L} {l : List (SX K)} {n : ℕ} (h : meas ρ l ≤ toLex (0, n)) : ∀ x ∈ l, Def ρ x := by
  classical
  have h0 : l.countP (fun x => decide (¬ Def ρ x)) = 0 := by
    unfold meas at h
    rw [Prod.Lex.toLex_le_toLex] at h
    rcases h with h | h
    · exact absurd h (by simp)
    · exact h.1
  rw [List.countP_eq_zero] at h0
  intro x hx
  have := h0 x hx
  simpa using this

theorem repl_sz {r : SX K} : szs (repl isOne flatTimes r) ≤ sz r := by
  unfold repl
  split
  · simp [szs]
  · cases r with
    | times l => simp only [flatTimes, Option.getD_some, sz]; omega
    | _ => simp [flatTimes, szs]

theorem repl_def {r : SX K} (h : Def ρ r) : ∀ x ∈ repl isOne flatTimes r, Def ρ x := by
  unfold repl
  split
  · simp
  · cases r with
    | times l => simpa only [flatTimes, Option.getD_some, Def, defs_iff] using h
    | _ => intro x hx; simp only [flatTimes, Option.getD_none, List.mem_singleton] at hx; subst hx; exact h

theorem scalar_decreasing (n : ℕ) : Decreasing (fun _ => binRule (K := K)) isOne flatTimes (meas ρ) (toLex (0, n)) where
  mono p l q := by
    classical
    unfold meas
    rw [Prod.Lex.toLex_le_toLex]
    simp only [List.countP_append, szs_append]
    omega
  total x y h := by
    have hd := def_of_meas h
    obtain ⟨o, ho⟩ := binRule_total (hd x (by simp)) (hd y (by simp))
    exact ⟨o, 0, fun _ _ => ho⟩
  dec x y r h hr p q := by
    classical
    obtain ⟨N, hN⟩ := hr
    have hr : binRule x y = .ok (some r) := hN N le_rfl
    have hd := def_of_meas h
    have hV := binRule_V (V.refl (hd x (by simp))) (V.refl (hd y (by simp))) hr
    have h1 := binRule_sz hr
    have h2 := repl_sz (r := r)
    have h3 : (repl isOne flatTimes r).countP (fun x => decide (¬ Def ρ x)) = 0 := by
      rw [List.countP_eq_zero]; intro z hz; simpa using repl_def hV.1 z hz
    unfold meas
    rw [Prod.Lex.toLex_lt_toLex]
    simp only [List.countP_append, szs_append, h3, szs]
    have h4 : ([x, y] : List (SX K)).countP (fun x => decide (¬ Def ρ x)) = 0 := by
      rw [List.countP_eq_zero]; intro z hz; simpa using hd z hz
    rw [h4]
    right
    refine ⟨rfl, ?_⟩
    omega

variable {Γ : Ctx K}

theorem assoc_def {ops : List (SX K)} (hd : ∀ x ∈ ops, Def ρ x) : ∀ x ∈ Engine.assoc flatTimes ops, Def ρ x := by
  have hs : Engine.Sound (V (K := K) ρ) (binRule (K := K)) (isOne (K := K)) (flatTimes (K := K)) :=
    ⟨fun x y r a b hx hy hr => binRule_V hx hy hr, fun r a hn ha => by rw [← ha.2, isOne_val hn],
     fun r l a hl ha => by rw [flatTimes_eq hl, times_V_iff] at ha; exact ha⟩
  exact (prodV_iff.mp (Engine.prod_assoc hs.flat (prodV_iff.mpr ⟨hd, rfl⟩))).1

theorem timesCreate_ev (hΓ : SortCtx Γ) {ops : List (SX K)} (hd : ∀ x ∈ ops, Def ρ x) : ∃ r, Ev (fun n => timesCreate (Γ.limit n) ops) r := by
  have h1 := assoc_def hd
  have h3 : ∀ x ∈ Γ.sortTimes (Engine.assoc flatTimes ops), Def ρ x := fun x hx => h1 x ((hΓ.times _).mem_iff.mp hx)
  have h4 := Engine.filterNeutral_sound (V := V (K := K) ρ) (fun r a hn ha => by rw [← ha.2, isOne_val hn])
    (⟨by simp [Def], by simp [sval]⟩ : V ρ (.one : SX K) 1) (prodV_iff.mpr ⟨h3, rfl⟩)
  cases e : Engine.filterNeutral SX.one isOne (Γ.sortTimes (Engine.assoc flatTimes ops)) with
  | single x =>
    refine ⟨x, 0, fun n _ => ?_⟩
    show timesCreate (Γ.limit n) ops = _
    unfold timesCreate
    simp only [Ctx.limit, e]
  | operands l =>
    rw [e] at h4
    have hl : ∀ x ∈ l, Def ρ x := (prodV_iff.mp h4).1
    obtain ⟨o, ⟨N, hN⟩, -⟩ := matchReplaceBinary_ev (scalar_decreasing (ρ := ρ) (K := K) (szs l)) .one l (le_of_eq (meas_def hl))
    refine ⟨wrapTimes o, N, fun n hn => ?_⟩
    have e2 := hN n n hn hn
    dsimp only at e2
    show timesCreate (Γ.limit n) ops = _
    unfold timesCreate
    simp only [Ctx.limit, e, e2]
    rfl

theorem SortCtx.limit (h : SortCtx Γ) (n : ℕ) : SortCtx (Γ.limit n) := ⟨h.plus, h.times⟩

theorem mul_ev (hΓ : SortCtx Γ) {x y : SX K} (hx : Def ρ x) (hy : Def ρ y) : ∃ r, Ev (fun n => mul (Γ.limit n) x y) r := by
  have ht := timesCreate_ev (ρ := ρ) hΓ (ops := [x, y]) (by simp [hx, hy])
  obtain ⟨r, N, hN⟩ := ht
  have gen : ∃ r, Ev (fun n => if isOne y then .ok x else if isZero y then .ok .zero else timesCreate (Γ.limit n) [x, y]) r := by
    by_cases h1 : isOne y = true
    · exact ⟨x, 0, fun n _ => by simp [h1]⟩
    · by_cases h2 : isZero y = true
      · exact ⟨.zero, 0, fun n _ => by simp [h1, h2]⟩
      · exact ⟨r, N, fun n hn => by simpa [h1, h2] using hN n hn⟩
  unfold mul
  split
  · exact ⟨_, ev_const _⟩
  · exact ⟨_, ev_const _⟩
  · exact ⟨_, ev_const _⟩
  · exact gen

/-- a computation that succeeds with a value, for every large recursion limit -/
theorem mul_evV (hΓ : SortCtx Γ) {x y : SX K} (hx : Def ρ x) (hy : Def ρ y) :
    ∃ r, Ev (fun n => mul (Γ.limit n) x y) r ∧ V ρ r (sval ρ x * sval ρ y) := by
  obtain ⟨r, N, hN⟩ := mul_ev hΓ hx hy
  exact ⟨r, ⟨N, hN⟩, mul_V (hΓ.limit N) hx hy (hN N le_rfl)⟩

theorem foldlM_mul_ev (hΓ : SortCtx Γ) : ∀ {l : List (SX K)} {t : SX K}, Def ρ t → (∀ x ∈ l, Def ρ x) →
    ∃ r, Ev (fun n => l.foldlM (mul (Γ.limit n)) t) r := by
  intro l
  induction l with
  | nil => intro t _ _; exact ⟨t, 0, fun _ _ => rfl⟩
  | cons x l ih =>
    intro t ht hl
    obtain ⟨r, hr, hV⟩ := mul_evV hΓ ht (hl x (by simp))
    obtain ⟨s, hs⟩ := ih hV.1 (fun y hy => hl y (by simp [hy]))
    exact ⟨s, ev_congr (fun n => List.foldlM_cons ..) (ev_bind (g := fun n r => l.foldlM (mul (Γ.limit n)) r) hr hs)⟩

theorem splitS_ev (hΓ : SortCtx Γ) {x : SX K} (hx : Def ρ x) : ∃ p, Ev (fun n => splitS (Γ.limit n) x) p := by
  have gen : ∀ x : SX K, (∀ n, splitS (Γ.limit n) x = .ok (x, .one)) → ∃ p, Ev (fun n => splitS (Γ.limit n) x) p := fun x h => ⟨_, 0, fun n _ => h n⟩
  match x, hx with
  | .times (.val c :: t :: l), hx =>
    simp only [Def, Defs] at hx
    obtain ⟨r, N, hN⟩ := foldlM_mul_ev (ρ := ρ) hΓ (l := l) (t := t) hx.2.1 ((defs_iff ρ l).mp hx.2.2)
    refine ⟨(r, .val c), N, fun n hn => ?_⟩
    have e := hN n hn
    dsimp only at e
    show splitS (Γ.limit n) _ = _
    simp only [splitS, e]
    rfl
  | .zero, _ => exact gen _ fun n => rfl
  | .one, _ => exact gen _ fun n => rfl
  | .val _, _ => exact gen _ fun n => rfl
  | .sym _, _ => exact gen _ fun n => rfl
  | .plus _, _ => exact gen _ fun n => rfl
  | .pow _ _, _ => exact gen _ fun n => rfl
  | .times [], _ => exact gen _ fun n => rfl
  | .times [_], _ => exact gen _ fun n => by simp only [splitS]
  | .times (.zero :: _ :: _), _ => exact gen _ fun n => rfl
  | .times (.one :: _ :: _), _ => exact gen _ fun n => rfl
  | .times (.sym _ :: _ :: _), _ => exact gen _ fun n => rfl
  | .times (.plus _ :: _ :: _), _ => exact gen _ fun n => rfl
  | .times (.times _ :: _ :: _), _ => exact gen _ fun n => rfl
  | .times (.pow _ _ :: _ :: _), _ => exact gen _ fun n => rfl

theorem collect_ev (hΓ : SortCtx Γ) : ∀ (ops : List (SX K)) (st : SX K × List (SX K × SX K)), (∀ x ∈ ops, Def ρ x) →
    ∃ st', Ev (fun n => ops.foldlM (collectStep (Γ.limit n)) st) st' := by
  intro ops
  induction ops with
  | nil => intro st _; exact ⟨st, 0, fun _ _ => rfl⟩
  | cons x ops ih =>
    intro st hd
    have h1 : ∃ s, Ev (fun n => collectStep (Γ.limit n) st x) s := by
      obtain ⟨p, N, hN⟩ := splitS_ev (ρ := ρ) hΓ (hd x (by simp))
      have gen : (∀ n, collectStep (Γ.limit n) st x = (splitS (Γ.limit n) x).map (fun tc => (st.1, addTerm st.2 tc.1 tc.2))) →
          ∃ s, Ev (fun n => collectStep (Γ.limit n) st x) s := by
        intro h
        refine ⟨(st.1, addTerm st.2 p.1 p.2), N, fun n hn => ?_⟩
        have e := hN n hn
        dsimp only at e
        show collectStep (Γ.limit n) st x = _
        rw [h, e]; rfl
      cases x with
      | val k => exact ⟨_, 0, fun n _ => rfl⟩
      | _ => exact gen fun n => rfl
    obtain ⟨s, hs⟩ := h1
    obtain ⟨s', hs'⟩ := ih s (fun y hy => hd y (by simp [hy]))
    exact ⟨s', ev_congr (fun n => List.foldlM_cons ..) (ev_bind (g := fun n s => ops.foldlM (collectStep (Γ.limit n)) s) hs hs')⟩

theorem plusCreate_ev (hΓ : SortCtx Γ) {ops : List (SX K)} (hd : ∀ x ∈ ops, Def ρ x) : ∃ r, Ev (fun n => plusCreate (Γ.limit n) ops) r := by
  obtain ⟨hf1, hf2⟩ := flatPlus_def hd
  have hs : ∀ x ∈ Γ.sortPlus (Engine.assoc flatPlus ops), Def ρ x := fun x hx => hf1 x ((hΓ.plus _).mem_iff.mp hx)
  obtain ⟨st, N, hN⟩ := collect_ev (ρ := ρ) hΓ (Γ.sortPlus (Engine.assoc flatPlus ops)) (.zero, []) hs
  have hi := collect_V (hΓ.limit N) _ _ _ (0 : L) hs
    (show Inv (ρ := ρ) ((.zero, []) : SX K × List (SX K × SX K)) 0 from ⟨trivial, by simp, by simp [sval]⟩) (hN N le_rfl)
  obtain ⟨fops, hf, -⟩ := ev_mapM (fun n (tc : SX K × SX K) => mul (Γ.limit n) tc.2 tc.1) (fun _ _ => True) st.2 (fun p hp => by
    obtain ⟨r, hr⟩ := mul_ev (ρ := ρ) hΓ (wrapped_def (hi.terms p hp).2) (hi.terms p hp).1
    exact ⟨r, hr, trivial⟩)
  refine ⟨wrapPlus ((if isZero st.1 then [] else [st.1]) ++ fops.filter (fun op => !isZero op)), ?_⟩
  have h1 : Ev (fun n => (Γ.sortPlus (Engine.assoc flatPlus ops)).foldlM (collectStep (Γ.limit n)) (.zero, [])) st := ⟨N, hN⟩
  exact ev_bind (g := fun n st => st.2.mapM (fun tc => mul (Γ.limit n) tc.2 tc.1) >>= fun fops =>
    .ok (wrapPlus ((if isZero st.1 then [] else [st.1]) ++ fops.filter (fun op => !isZero op)))) h1
    (ev_bind (g := fun _ fops => .ok (wrapPlus ((if isZero st.1 then [] else [st.1]) ++ fops.filter (fun op => !isZero op)))) hf (ev_const _))

theorem add_ev (hΓ : SortCtx Γ) {x y : SX K} (hx : Def ρ x) (hy : Def ρ y) : ∃ r, Ev (fun n => add (Γ.limit n) x y) r := by
  obtain ⟨r, hr⟩ := plusCreate_ev (ρ := ρ) hΓ (ops := [x, y]) (by simp [hx, hy])
  unfold add
  split
  · exact ⟨_, ev_const _⟩
  · by_cases h : isZero y = true
    · exact ⟨x, 0, fun n _ => by simp [h]⟩
    · exact ⟨r, ev_congr (fun n => by simp [h]) hr⟩

theorem neg_one_def : Def ρ (create (-1) : SX K) := (create_V (ρ := ρ) (-1)).1

theorem neg_ev (hΓ : SortCtx Γ) {x : SX K} (hx : Def ρ x) : ∃ r, Ev (fun n => neg (Γ.limit n) x) r := by
  have ht := timesCreate_ev (ρ := ρ) hΓ (ops := [create (-1), x]) (by simp [hx, neg_one_def])
  unfold neg
  split
  · exact ⟨_, ev_const _⟩
  · exact ⟨_, ev_const _⟩
  · exact ⟨_, ev_const _⟩
  · exact ht

theorem minus_ev (hΓ : SortCtx Γ) {x : SX K} (hx : Def ρ x) : ∃ r, Ev (fun n => minus (Γ.limit n) x) r := by
  have ht := timesCreate_ev (ρ := ρ) hΓ (ops := [create (-1), x]) (by simp [hx, neg_one_def])
  unfold minus
  split
  · exact ⟨_, ev_const _⟩
  · exact ⟨_, ev_const _⟩
  · exact ⟨_, ev_const _⟩
  · exact ht

theorem sub_ev (hΓ : SortCtx Γ) {x y : SX K} (hx : Def ρ x) (hy : Def ρ y) : ∃ r, Ev (fun n => sub (Γ.limit n) x y) r := by
  have gen : ∃ r, Ev (fun n => if isZero y then .ok x else minus (Γ.limit n) y >>= add (Γ.limit n) x) r := by
    by_cases h : isZero y = true
    · exact ⟨x, 0, fun n _ => by simp [h]⟩
    · obtain ⟨z, N, hN⟩ := minus_ev (ρ := ρ) hΓ hy
      have hz := minus_V (hΓ.limit N) hy (hN N le_rfl)
      obtain ⟨r, hr⟩ := add_ev (ρ := ρ) hΓ hx hz.1
      exact ⟨r, ev_congr (fun n => by simp [h]) (ev_bind (f := fun n => minus (Γ.limit n) y) (g := fun n z => add (Γ.limit n) x z) ⟨N, hN⟩ hr)⟩
  unfold sub
  split
  · exact ⟨_, ev_const _⟩
  · exact ⟨_, ev_const _⟩
  · exact ⟨_, ev_const _⟩
  · exact ⟨_, ev_const _⟩
  · exact ⟨_, ev_const _⟩
  · obtain ⟨r, hr⟩ := plusCreate_ev (ρ := ρ) hΓ (ops := [.one, y]) (by simp [hy, Def])
    by_cases h : isZero y = true
    · exact ⟨.one, 0, fun n _ => by simp [h]⟩
    · exact ⟨r, ev_congr (fun n => by simp [h]) hr⟩
  · exact gen

/-- C35: sums, differences, products, negatives and powers (negative powers: of scalars that are not zero) of scalars are computed without
exception, if the recursion limit is sufficiently large; the result does not depend on the limit. -/
theorem C35_total (hΓ : SortCtx Γ) {x y : SX K} (hx : Def ρ x) (hy : Def ρ y) :
    (∃ N r, ∀ n, N ≤ n → add (Γ.limit n) x y = .ok r) ∧ (∃ N r, ∀ n, N ≤ n → sub (Γ.limit n) x y = .ok r) ∧
    (∃ N r, ∀ n, N ≤ n → mul (Γ.limit n) x y = .ok r) ∧ (∃ N r, ∀ n, N ≤ n → neg (Γ.limit n) x = .ok r) ∧
    ∀ e : ℤ, (e < 0 → sval ρ x ≠ 0) → ∃ r, powS x e = .ok r := by
  obtain ⟨r1, N1, h1⟩ := add_ev hΓ hx hy
  obtain ⟨r2, N2, h2⟩ := sub_ev hΓ hx hy
  obtain ⟨r3, N3, h3⟩ := mul_ev hΓ hx hy
  obtain ⟨r4, N4, h4⟩ := neg_ev hΓ hx
  exact ⟨⟨N1, r1, h1⟩, ⟨N2, r2, h2⟩, ⟨N3, r3, h3⟩, ⟨N4, r4, h4⟩, fun e he => powS_total hx he⟩

/-- a sum of products of symbols and numbers, with an inverse: `(2 x + y**(-1)) * (2 x + y**(-1))` -/
example : ∃ N r, ∀ n, N ≤ n → mul ((Ctx.plain ℚ).limit n) (.plus [.times [.val 2, .sym 0], .pow (.sym 1) (-1)])
    (.plus [.times [.val 2, .sym 0], .pow (.sym 1) (-1)]) = .ok r :=
  (C35_total (ρ := fun _ => (1 : ℚ)) ⟨fun _ => .refl _, fun _ => .refl _⟩ (by simp [Def, Defs, sval]) (by simp [Def, Defs, sval])).2.2.1

end QNET.Scalar
