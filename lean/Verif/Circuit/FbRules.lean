import Verif.Circuit.SeriesRules

/-! # Soundness of the rules for feedback -/

namespace QNET.Circuit

open QNET.Perm QNET.CPerm

variable {A : Type} [Ring A] [StarRing A] [Algebra ℂ A]

namespace CircAlg

variable {M : CircAlg A}

/-! ### `index_in_block` -/

theorem indexLoop_eq (st : List ℕ) (ch n : ℕ) : ∀ f i, indexLoop st ch n f i = blockSearch st n ch i f := by
  intro f
  induction f with
  | zero => intro i; rfl
  | succ f ih => intro i; simp only [indexLoop, blockSearch, ih]

theorem indexInBlock_sound {c : Circ A} {t : M.T} {st : List ℕ} {ch j b : ℕ} (hv : M.V c t) (hb : blockStructure c = .ok st)
    (h : indexInBlock c ch = .ok (j, b)) : ∃ z, st[b]? = some z ∧ j < z ∧ ch = (st.take b).sum + j := by
  have hsum := blockStructure_sum c hb
  have e : CPerm.indexInBlock st st.sum ch = .ok (j, b) := by
    unfold Circuit.indexInBlock at h
    unfold CPerm.indexInBlock
    rw [hsum]
    split at h
    · cases h
    · rename_i hc
      rw [if_neg hc]
      rw [bind_ok] at h
      obtain ⟨st', h1, h⟩ := h
      rw [hb] at h1; injection h1 with h1; subst h1
      split at h
      · rename_i hl
        rw [if_pos hl]; exact h
      · rename_i hl
        rw [if_neg hl]
        simp only [indexLoop_eq] at h ⊢
        exact h
  have hlt : ch < st.sum := by
    by_contra hc
    unfold CPerm.indexInBlock at e
    rw [if_pos (by omega)] at e; cases e
  have hpos := blockStructure_pos c hb hv (by rw [← hv.cdim, ← hsum]; omega)
  obtain ⟨j', b', z, h1, h2, h3, h4⟩ := (C51_index_in_block hpos).2 hlt
  rw [h1] at e; injection e with e; cases e
  exact ⟨z, h2, h3, h4⟩

/-! ### `feedback` of atoms -/

theorem fb_some_lt {t u : M.T} {o i : ℕ} (h : M.fb t o i = some u) : o < M.dim t ∧ i < M.dim t ∧ 2 ≤ M.dim t ∧ M.dim u = M.dim t - 1 :=
  let k := M.fb_dim t o i u h
  ⟨k.2.1, k.2.2.1, k.2.2.2, k.1⟩

theorem permFeedback_sound {p : List ℕ} {o i : ℕ} {r : PC} {u : M.T} (hp : Reachable (.perm p)) (hu : M.fb (M.perm p) o i = some u)
    (h : CPerm.feedback p o i = .ok r) : M.V (ofPC r : Circ A) u := by
  obtain ⟨ho, hi, -, -⟩ := fb_some_lt hu
  rw [M.dim_perm] at ho hi
  obtain ⟨c, e, rc, dc, hc⟩ := feedback_ok hp ho hi
  rw [h] at e; injection e with e; subst e
  have : u = M.perm r.tuple := by
    refine M.fb_perm p r.tuple o i u hp.valid rc.valid (by rw [← rc.cdim, dc]) ho hi ?_ hu
    intro l x y hl hx hy
    exact hc l x y hl hx hy
  rw [this]
  exact V_ofPC rc

/-- the condition under which feedback of `SLH` objects is sound: either the strict variant, or no `SLH` objects -/
def Strict (M : CircAlg A) (s : Bool) : Prop := s = true ∨ ∀ x, M.leaf x = none

theorem slhFeedback_dim {s : Bool} (hst : Strict M s) {x : SLH A} {o i : ℕ} {r : Circ A} {t : M.T} (hv : M.V (.slh x) t)
    (h : slhFeedback s x o i = .ok r) : 2 ≤ M.dim t := by
  rcases hst with rfl | hl
  · unfold slhFeedback at h
    split at h
    · cases h
    · rename_i hc
      rw [(M.leaf_dim x t hv).1]
      simp at hc; omega
  · exact absurd (show M.leaf x = some t from hv) (by rw [hl]; simp)

theorem slhFeedback_sound {s : Bool} {x : SLH A} {o i : ℕ} {r : Circ A} {t u : M.T} (hv : M.V (.slh x) t) (hu : M.fb t o i = some u)
    (h : slhFeedback s x o i = .ok r) : M.V r u := by
  unfold slhFeedback at h
  split at h
  · cases h
  · rw [bind_ok] at h
    obtain ⟨y, h1, h2⟩ := h
    injection h2 with h2; subst h2
    exact M.leaf_fb x y t u o i hv hu h1

theorem fbMW_sound {s : Bool} {R : Ops A} (hs : Sound M R) {cf : List (Circ A) → ℕ → ℕ → Res (Circ A)}
    (hcf : ∀ l o i r t u, M.V (.concat l) t → M.fb t o i = some u → cf l o i = .ok r → M.V r u)
    {c r : Circ A} {o i : ℕ} {t u : M.T} (hv : M.V c t) (hu : M.fb t o i = some u)
    (h : feedbackMethodWith s R cf c o i = .ok r) : M.V r u := by
  cases c with
  | slh x => exact slhFeedback_sound hv hu h
  | perm p =>
    simp only [feedbackMethodWith] at h
    rw [bind_ok] at h
    obtain ⟨y, h1, h2⟩ := h
    injection h2 with h2; subst h2
    obtain ⟨hp, rfl⟩ := V_perm.mp hv
    exact permFeedback_sound hp hu h1
  | concat l => exact hcf l o i r t u hv hu h
  | sym => exact hs.feedback hv hu h
  | id1 => exact hs.feedback hv hu h
  | zero => exact hs.feedback hv hu h
  | series => exact hs.feedback hv hu h
  | fb => exact hs.feedback hv hu h
  | inv => exact hs.feedback hv hu h

theorem fbMW_dim {s : Bool} (hst : Strict M s) {R : Ops A} (hs : Sound M R) {c r : Circ A} {o i : ℕ} {t : M.T} (hv : M.V c t)
    (h : feedbackMethodWith s R (fun l o i => R.feedback (.concat l) o i) c o i = .ok r) : 2 ≤ M.dim t := by
  cases c with
  | slh x => exact slhFeedback_dim hst hv h
  | perm p =>
    obtain ⟨hp, rfl⟩ := V_perm.mp hv
    rw [M.dim_perm]; exact perm_length_pos hp
  | concat l => rw [← hv.cdim]; exact hs.fb_dim h
  | sym => rw [← hv.cdim]; exact hs.fb_dim h
  | id1 => rw [← hv.cdim]; exact hs.fb_dim h
  | zero => rw [← hv.cdim]; exact hs.fb_dim h
  | series => rw [← hv.cdim]; exact hs.fb_dim h
  | fb => rw [← hv.cdim]; exact hs.fb_dim h
  | inv => rw [← hv.cdim]; exact hs.fb_dim h

/-! ### cross-block feedback -/

/-- closing a loop over an identity from a later to an earlier channel -/
theorem fb_one_down {n o i : ℕ} {u : M.T} {m : PC} (hio : i < o) (hu : M.fb (M.one n) o i = some u)
    (h : mapChannels [(o - 1, i)] (n - 1) = .ok m) : M.V (ofPC m : Circ A) u ∧ M.dim u = n - 1 := by
  obtain ⟨ho, hi, h2, hd⟩ := fb_some_lt hu
  rw [M.dim_one] at ho hi h2 hd
  obtain ⟨c, e, rc, dc, lc, hc1, hc2⟩ := mapChannels_single (show o - 1 < n - 1 by omega) (show i < n - 1 by omega)
  rw [h] at e; injection e with e; subst e
  refine ⟨?_, hd⟩
  have : u = M.perm m.tuple := by
    refine M.fb_perm (List.range n) m.tuple o i u (valid_range n) rc.valid (by simp [lc]) (by simpa using ho) (by simpa using hi) ?_
      (by rw [M.perm_range]; exact hu)
    intro l x y hl hx hy
    simp only [List.length_range] at hl
    have hx1 : skip i l < n := by unfold skip; split <;> omega
    rw [List.getElem?_eq_getElem (by simpa using hx1)] at hx
    rw [List.getElem?_eq_getElem (by simpa using hi)] at hy
    simp only [List.getElem_range, Option.some.injEq] at hx hy
    subst hx hy
    by_cases hlo : l = o - 1
    · subst hlo
      refine ⟨i, hc1, ?_, ?_⟩
      · intro hne; unfold skip at hne; split at hne <;> omega
      · intro _; unfold skip; rw [if_pos hio]
    · have hup : l = Aff.up (o - 1) (if l < o - 1 then l else l - 1) := by unfold Aff.up; split_ifs <;> omega
      have hb := hc2 (if l < o - 1 then l else l - 1) (by split <;> omega)
      rw [← hup] at hb
      refine ⟨_, hb, ?_, ?_⟩
      · intro _; simp only [Aff.up, skip]; split_ifs <;> omega
      · intro he; exfalso; unfold skip at he; split at he <;> omega
  rw [this]; exact V_ofPC rc

/-- closing a loop over an identity from an earlier to a later channel -/
theorem fb_one_up {n o i : ℕ} {u : M.T} {m : PC} (hio : o < i) (hu : M.fb (M.one n) o i = some u)
    (h : mapChannels [(o, i - 1)] (n - 1) = .ok m) : M.V (ofPC m : Circ A) u ∧ M.dim u = n - 1 := by
  obtain ⟨ho, hi, h2, hd⟩ := fb_some_lt hu
  rw [M.dim_one] at ho hi h2 hd
  obtain ⟨c, e, rc, dc, lc, hc1, hc2⟩ := mapChannels_single (show o < n - 1 by omega) (show i - 1 < n - 1 by omega)
  rw [h] at e; injection e with e; subst e
  refine ⟨?_, hd⟩
  have : u = M.perm m.tuple := by
    refine M.fb_perm (List.range n) m.tuple o i u (valid_range n) rc.valid (by simp [lc]) (by simpa using ho) (by simpa using hi) ?_
      (by rw [M.perm_range]; exact hu)
    intro l x y hl hx hy
    simp only [List.length_range] at hl
    have hx1 : skip i l < n := by unfold skip; split <;> omega
    rw [List.getElem?_eq_getElem (by simpa using hx1)] at hx
    rw [List.getElem?_eq_getElem (by simpa using hi)] at hy
    simp only [List.getElem_range, Option.some.injEq] at hx hy
    subst hx hy
    by_cases hlo : l = o
    · subst hlo
      refine ⟨i - 1, hc1, ?_, ?_⟩
      · intro hne; unfold skip at hne; split at hne <;> omega
      · intro _; unfold skip; rw [if_neg (by omega)]; omega
    · have hup : l = Aff.up o (if l < o then l else l - 1) := by unfold Aff.up; split_ifs <;> omega
      have hb := hc2 (if l < o then l else l - 1) (by split <;> omega)
      rw [← hup] at hb
      refine ⟨_, hb, ?_, ?_⟩
      · intro _; simp only [Aff.up, skip]; split_ifs <;> omega
      · intro he; exfalso; unfold skip at he; split at he <;> omega
  rw [this]; exact V_ofPC rc

/-- `a ⊕ b = (a ⊕ 1) ≪ (1 ⊕ b)` -/
theorem concat_split (a b : M.T) : M.concat a b = M.series (M.concat a (M.one (M.dim b))) (M.concat (M.one (M.dim a)) b) := by
  rw [M.interchange _ _ _ _ (by rw [M.dim_one]) (by rw [M.dim_one]), M.series_one, M.one_series]

/-- `a ⊕ b = (1 ⊕ b) ≪ (a ⊕ 1)` -/
theorem concat_split' (a b : M.T) : M.concat a b = M.series (M.concat (M.one (M.dim a)) b) (M.concat a (M.one (M.dim b))) := by
  rw [M.interchange _ _ _ _ (by rw [M.dim_one]) (by rw [M.dim_one]), M.series_one, M.one_series]

/-- feedback from `b` to `a` -/
theorem fb_cross_down {a b u : M.T} {o i : ℕ} (hi : i < M.dim a) (ho : M.dim a ≤ o) (hu : M.fb (M.concat a b) o i = some u) :
    ∃ m, M.fb (M.one (M.dim a + M.dim b)) o i = some m ∧
      u = M.series (M.series (M.concat a (M.one (M.dim b - 1))) m) (M.concat (M.one (M.dim a - 1)) b) := by
  obtain ⟨h1, h2, h3, h4⟩ := fb_some_lt hu
  rw [M.dim_concat] at h1 h2 h3 h4
  rw [concat_split] at hu
  have th1 := M.thread_concat_right i i _ _ b (M.thread_one (M.dim a) i hi)
  have th2 := M.thread_concat_left (o - M.dim a) (o - M.dim a) _ _ a (M.thread_one (M.dim b) (o - M.dim a) (by omega))
  rw [show M.dim a + (o - M.dim a) = o by omega] at th2
  rw [M.fb_right i i o _ _ _ th1 (by simp [M.dim_concat, M.dim_one]) (by rw [M.dim_concat, M.dim_one]; omega),
    Option.map_eq_some_iff] at hu
  obtain ⟨x, hx, rfl⟩ := hu
  have e := M.series_one (M.concat a (M.one (M.dim b)))
  rw [M.dim_concat, M.dim_one] at e
  rw [← e, M.fb_left o o i _ _ _ th2 (by simp [M.dim_concat, M.dim_one]) (by rw [M.dim_one]; omega), Option.map_eq_some_iff] at hx
  obtain ⟨m, hm, rfl⟩ := hx
  exact ⟨m, hm, rfl⟩

/-- feedback from `a` to `b` -/
theorem fb_cross_up {a b u : M.T} {o i : ℕ} (ho : o < M.dim a) (hi : M.dim a ≤ i) (hu : M.fb (M.concat a b) o i = some u) :
    ∃ m, M.fb (M.one (M.dim a + M.dim b)) o i = some m ∧
      u = M.series (M.series (M.concat (M.one (M.dim a - 1)) b) m) (M.concat a (M.one (M.dim b - 1))) := by
  obtain ⟨h1, h2, h3, h4⟩ := fb_some_lt hu
  rw [M.dim_concat] at h1 h2 h3 h4
  rw [concat_split'] at hu
  have th1 := M.thread_concat_right o o _ _ b (M.thread_one (M.dim a) o ho)
  have th2 := M.thread_concat_left (i - M.dim a) (i - M.dim a) _ _ a (M.thread_one (M.dim b) (i - M.dim a) (by omega))
  rw [show M.dim a + (i - M.dim a) = i by omega] at th2
  rw [M.fb_right i i o _ _ _ th2 (by simp [M.dim_concat, M.dim_one]) (by rw [M.dim_concat, M.dim_one]; omega),
    Option.map_eq_some_iff] at hu
  obtain ⟨x, hx, rfl⟩ := hu
  have e := M.series_one (M.concat (M.one (M.dim a)) b)
  rw [M.dim_concat, M.dim_one] at e
  rw [← e, M.fb_left o o i _ _ _ th1 (by simp [M.dim_concat, M.dim_one]) (by rw [M.dim_one]; omega), Option.map_eq_some_iff] at hx
  obtain ⟨m, hm, rfl⟩ := hx
  exact ⟨m, hm, rfl⟩

theorem take_prod_dim {ts : List M.Mc} {st : List ℕ} (h : ts.map M.dim = st) (k : ℕ) : M.dim (ts.take k).prod = (st.take k).sum := by
  rw [prod_dim, List.map_take, h]

theorem drop_prod_dim {ts : List M.Mc} {st : List ℕ} (h : ts.map M.dim = st) (k : ℕ) : M.dim (ts.drop k).prod = (st.drop k).sum := by
  rw [prod_dim, List.map_drop, h]

theorem sum_take_le {st : List ℕ} {a b : ℕ} (h : a ≤ b) : (st.take a).sum ≤ (st.take b).sum := by
  obtain ⟨c, rfl⟩ := Nat.exists_eq_add_of_le h
  rw [List.take_add, List.sum_append]; omega

theorem sum_take_succ {st : List ℕ} {k z : ℕ} (h : st[k]? = some z) : (st.take (k + 1)).sum = (st.take k).sum + z := by
  rw [List.take_add_one, h, List.sum_append]; simp

theorem concatFeedback_sound {s : Bool} (hst : Strict M s) {R : Ops A} (hs : Sound M R) {ops : List (Circ A)} {r : Circ A} {o i : ℕ}
    {t u : M.T} (hv : M.V (.concat ops) t) (hu : M.fb t o i = some u) (h : concatFeedback s R ops o i = .ok r) : M.V r u := by
  obtain ⟨ho, hi, h2, hd⟩ := fb_some_lt hu
  have hn : (Circ.concat ops).cdim = M.dim t := hv.cdim
  have hfbM : ∀ {c r : Circ A} {o i : ℕ} {t u : M.T}, M.V c t → M.fb t o i = some u →
      feedbackMethodWith s R (fun l o i => R.feedback (.concat l) o i) c o i = .ok r → M.V r u :=
    fun h1 h2 h3 => fbMW_sound hs (fun l o i r t u k1 k2 k3 => hs.feedback k1 k2 k3) h1 h2 h3
  unfold concatFeedback at h
  simp only [hn] at h
  split at h
  · rename_i hlast
    split at h
    · cases h
    · rename_i last hl
      rw [bind_ok] at h
      obtain ⟨l, h3, h⟩ := h
      obtain ⟨hne, hp⟩ := V_concat.mp hv
      have hsplit : ops = ops.dropLast ++ [last] := by
        rw [List.getLast?_eq_some_getLast hne] at hl
        injection hl with hl
        rw [← hl]; exact (List.dropLast_append_getLast hne).symm
      rw [hsplit] at hp
      obtain ⟨x, y, k1, k2, k3⟩ := Engine.prod_append_iff.mp hp
      rw [Engine.prod_single_iff] at k2
      obtain ⟨k2, k4⟩ := k2
      have hy := fbMW_dim hst hs k2 h3
      have hc : last.cdim = M.dim y := V.cdim k2
      rw [hc] at h3
      have hdt : M.dim t = M.dim x + M.dim y := by rw [k3, mc_mul, M.dim_concat]
      obtain ⟨rfl, rfl⟩ := hlast
      rw [k3, mc_mul, show M.dim (M.concat x y) - 1 = M.dim x + (M.dim y - 1) by rw [M.dim_concat]; omega,
        M.fb_concat_right _ _ _ _ hy (by omega) (by omega), Option.map_eq_some_iff] at hu
      obtain ⟨z, hz, rfl⟩ := hu
      have hl := hfbM k2 hz h3
      exact hs.concat (Engine.prod_append_iff.mpr ⟨x, z, prod_p k1, Engine.prod_single_iff.mpr hl, rfl⟩) h
  · rw [bind_ok] at h
    obtain ⟨⟨inIdx, inBlock⟩, h3, h⟩ := h
    rw [bind_ok] at h
    obtain ⟨⟨outIdx, outBlock⟩, h4, h⟩ := h
    rw [bind_ok] at h
    obtain ⟨blocks, h5, h⟩ := h
    obtain ⟨st, hst'⟩ : ∃ st, blockStructure (.concat ops) = .ok st := by
      unfold Circuit.indexInBlock at h3
      split at h3
      · cases h3
      · rw [bind_ok] at h3
        obtain ⟨st, h3, -⟩ := h3
        exact ⟨st, h3⟩
    obtain ⟨zi, i1, i2, i3⟩ := indexInBlock_sound hv hst' h3
    obtain ⟨zo, o1, o2, o3⟩ := indexInBlock_sound hv hst' h4
    obtain ⟨ts, j1, j2, j3⟩ := ownBlocks_concat hs hv h5 hst'
    have hsum : st.sum = M.dim t := by rw [blockStructure_sum _ hst', hn]
    have htake : ∀ k, Engine.Prod M.Vc (blocks.take k) (ts.take k).prod := fun k => ⟨_, List.forall₂_take k j1, rfl⟩
    have hdrop : ∀ k, Engine.Prod M.Vc (blocks.drop k) (ts.drop k).prod := fun k => ⟨_, List.forall₂_drop k j1, rfl⟩
    have htd : ∀ k, t = M.concat (ts.take k).prod (ts.drop k).prod := fun k => by
      rw [← mc_mul, ← List.prod_append, List.take_append_drop]; exact j3
    simp only at h
    split at h
    · rename_i hbb
      subst hbb
      rw [bind_ok] at h
      obtain ⟨before, g1, h⟩ := h
      split at h
      · rename_i b hb
        rw [bind_ok] at h
        obtain ⟨blk, g2, h⟩ := h
        rw [bind_ok] at h
        obtain ⟨x, g3, h⟩ := h
        rw [bind_ok] at h
        obtain ⟨after, g4, h⟩ := h
        obtain ⟨y, y1, y2⟩ := getElem?_forall₂ j1 hb
        have hy := fbMW_dim hst hs y2 g2
        have hydim : M.dim y = zi := by
          have := congrArg (fun l => l[inBlock]?) j2
          simp only [List.getElem?_map, y1, Option.map_some] at this
          rw [i1] at this; injection this
        have hdr : (ts.drop inBlock).prod = M.concat y (ts.drop (inBlock + 1)).prod := by
          obtain ⟨hlt, hget⟩ := List.getElem?_eq_some_iff.mp y1
          rw [List.drop_eq_getElem_cons hlt, hget, List.prod_cons]; rfl
        have hdP : M.dim (ts.take inBlock).prod = (st.take inBlock).sum := take_prod_dim j2 _
        rw [i1] at o1; injection o1 with o1; subst o1
        rw [htd inBlock, hdr] at hu
        rw [o3, i3, ← hdP, M.fb_concat_right _ _ _ _ (by rw [M.dim_concat]; omega) (by rw [M.dim_concat]; omega)
          (by rw [M.dim_concat]; omega), M.fb_concat_left _ _ _ _ hy (by omega) (by omega), Option.map_map, Option.map_eq_some_iff] at hu
        obtain ⟨z, hz, rfl⟩ := hu
        have v1 := hs.concat (htake inBlock) g1
        have v2 := hfbM y2 hz g2
        have v3 := hs.concat2 v1 v2 g3
        have v4 := hs.concat (hdrop (inBlock + 1)) g4
        have v5 := hs.concat2 v3 v4 h
        rw [M.concat_assoc] at v5
        exact v5
      · cases h
    · split at h
      · rename_i hlt
        rw [bind_ok] at h; obtain ⟨b1, g1, h⟩ := h
        rw [bind_ok] at h; obtain ⟨b2, g2, h⟩ := h
        rw [bind_ok] at h; obtain ⟨l, g3, h⟩ := h
        rw [bind_ok] at h; obtain ⟨m, g4, h⟩ := h
        rw [bind_ok] at h; obtain ⟨rr, g5, h⟩ := h
        rw [bind_ok] at h; obtain ⟨x, g6, h⟩ := h
        have v1 := hs.concat (htake outBlock) g1
        have v2 := hs.concat (hdrop outBlock) g2
        set P := (ts.take outBlock).prod with hP
        set Q := (ts.drop outBlock).prod with hQ
        have hdP : M.dim P = (st.take outBlock).sum := take_prod_dim j2 _
        have hile : (st.take (inBlock + 1)).sum ≤ (st.take outBlock).sum := sum_take_le (by omega)
        rw [sum_take_succ i1] at hile
        have htPQ : t = M.concat P Q := htd outBlock
        have hdt : M.dim t = M.dim P + M.dim Q := by rw [htPQ, M.dim_concat]
        rw [htPQ] at hu
        obtain ⟨w, hw, rfl⟩ := fb_cross_down (by omega) (by omega) hu
        have v3 := hs.concat2 v1 (V_cid _) g3
        have v5 := hs.concat2 (V_cid _) v2 g5
        rw [V.cdim v2] at v3
        rw [V.cdim v1] at v5
        rw [hdt] at g4
        obtain ⟨v4, d4⟩ := fb_one_down (by omega) hw g4
        have hd1 : 0 < M.dim P := by omega
        have hd2 : 0 < M.dim Q := by omega
        have v6 := hs.series2 v3 v4 (by rw [M.dim_concat, M.dim_one, d4]; omega) g6
        exact hs.series2 v6 v5 (by rw [M.dim_series, M.dim_concat, M.dim_concat, M.dim_one, M.dim_one]; omega) h
      · rename_i hne hnlt
        rw [bind_ok] at h; obtain ⟨b1, g1, h⟩ := h
        rw [bind_ok] at h; obtain ⟨b2, g2, h⟩ := h
        rw [bind_ok] at h; obtain ⟨l, g3, h⟩ := h
        rw [bind_ok] at h; obtain ⟨m, g4, h⟩ := h
        rw [bind_ok] at h; obtain ⟨rr, g5, h⟩ := h
        rw [bind_ok] at h; obtain ⟨x, g6, h⟩ := h
        have v1 := hs.concat (htake inBlock) g1
        have v2 := hs.concat (hdrop inBlock) g2
        set P := (ts.take inBlock).prod with hP
        set Q := (ts.drop inBlock).prod with hQ
        have hdP : M.dim P = (st.take inBlock).sum := take_prod_dim j2 _
        have hile : (st.take (outBlock + 1)).sum ≤ (st.take inBlock).sum := sum_take_le (by omega)
        rw [sum_take_succ o1] at hile
        have htPQ : t = M.concat P Q := htd inBlock
        have hdt : M.dim t = M.dim P + M.dim Q := by rw [htPQ, M.dim_concat]
        rw [htPQ] at hu
        obtain ⟨w, hw, rfl⟩ := fb_cross_up (by omega) (by omega) hu
        have v3 := hs.concat2 (V_cid _) v2 g3
        have v5 := hs.concat2 v1 (V_cid _) g5
        rw [V.cdim v1] at v3
        rw [V.cdim v2] at v5
        rw [hdt] at g4
        obtain ⟨v4, d4⟩ := fb_one_up (by omega) hw g4
        have hd1 : 0 < M.dim P := by omega
        have hd2 : 0 < M.dim Q := by omega
        have v6 := hs.series2 v3 v4 (by rw [M.dim_concat, M.dim_one, d4]; omega) g6
        exact hs.series2 v6 v5 (by rw [M.dim_series, M.dim_concat, M.dim_concat, M.dim_one, M.dim_one]; omega) h

theorem feedbackMethod_sound {s : Bool} (hst : Strict M s) {R : Ops A} (hs : Sound M R) {c r : Circ A} {o i : ℕ}
    {t u : M.T} (hv : M.V c t) (hu : M.fb t o i = some u) (h : feedbackMethod s R c o i = .ok r) : M.V r u :=
  fbMW_sound hs (fun _ _ _ _ _ _ k1 k2 k3 => concatFeedback_sound hst hs k1 k2 k3) hv hu h

/-! ### pulling factors out of a feedback loop -/

theorem thread_of_factor {p : List ℕ} {o i : ℕ} {red : PC} (hp : Reachable (.perm p)) (hpi : p[i]? = some o) (hr : Reachable red)
    (hd : red.cdim = p.length - 1)
    (h : ∀ l x, l < p.length - 1 → p[Aff.up i l]? = some x → ∃ z, red.tuple[l]? = some z ∧ Aff.up o z = x) :
    M.Thread o i (M.perm p) (M.perm red.tuple) := by
  have hval : Valid p := hp.valid
  have hlen : red.tuple.length = p.length - 1 := by rw [← hr.cdim, hd]
  obtain ⟨hi, hpi'⟩ := List.getElem?_eq_some_iff.mp hpi
  refine M.thread_perm p red.tuple o i hval hr.valid hlen hpi ?_
  intro l z hz
  have hl : l < p.length - 1 := by rw [← hlen]; exact (List.getElem?_eq_some_iff.mp hz).1
  have hup : Aff.up i l < p.length := by unfold Aff.up; split <;> omega
  obtain ⟨z', h1, h2⟩ := h l _ hl (List.getElem?_eq_getElem hup)
  rw [hz] at h1; injection h1 with h1; subst h1
  rw [List.getElem?_eq_getElem hup]
  exact congrArg some h2.symm

theorem mn_cons {n : ℕ} {c : Circ A} {l : List (Circ A)} {m : M.Mn n} (h : Engine.Prod (M.Vn n) (c :: l) m) :
    ∃ x y : M.Mn n, M.V c x.1 ∧ Engine.Prod (M.Vn n) l y ∧ m.1 = M.series x.1 y.1 := by
  obtain ⟨x, y, h1, h2, rfl⟩ := Engine.prod_cons_iff.mp h
  exact ⟨x, y, h1, h2, rfl⟩

theorem mn_snoc {n : ℕ} {c : Circ A} {l : List (Circ A)} {m : M.Mn n} (h : Engine.Prod (M.Vn n) (l ++ [c]) m) :
    ∃ x y : M.Mn n, Engine.Prod (M.Vn n) l x ∧ M.V c y.1 ∧ m.1 = M.series x.1 y.1 := by
  obtain ⟨x, y, h1, h2, rfl⟩ := Engine.prod_append_iff.mp h
  exact ⟨x, y, h1, (Engine.prod_single_iff (V := M.Vn n)).mp h2, rfl⟩

theorem pullOutPermLhs_sound {R : Ops A} (hs : Sound M R) {p : List ℕ} {rest : List (Circ A)} {r : Circ A} {o i n : ℕ} {t : M.Mn n} {u : M.T}
    (hne : rest ≠ []) (hv : Engine.Prod (M.Vn n) (.perm p :: rest) t) (hu : M.fb t.1 o i = some u)
    (h : pullOutPermLhs R p rest o i = .ok (some r)) : M.V r u := by
  obtain ⟨x, y, h1, h2, h3⟩ := mn_cons hv
  obtain ⟨ho, hi, hd2, hdu⟩ := fb_some_lt hu
  rw [t.2] at ho hi hd2 hdu
  obtain ⟨hp, hx⟩ := V_perm.mp h1
  have hpl : p.length = n := by rw [← M.dim_perm p, ← hx, x.2]
  unfold pullOutPermLhs at h
  obtain ⟨k, red, e, e1, e2, e3, e4⟩ := factorLhs_ok hp (by rw [hpl]; exact ho)
  rw [e] at h
  rw [bind_ok] at h
  obtain ⟨⟨k', red'⟩, e', h⟩ := h
  injection e' with e'; cases e'
  simp only at h
  rw [bind_ok] at h; obtain ⟨s, g1, h⟩ := h
  rw [bind_ok] at h; obtain ⟨f, g2, h⟩ := h
  rw [bind_ok] at h; obtain ⟨c, g3, h⟩ := h
  injection h with h; injection h with h; subst h
  rw [h3, hx, M.fb_left o k i _ _ _ (thread_of_factor hp e1 e2 e3 e4) (by rw [M.dim_perm, y.2, hpl]) (by rw [y.2]; exact hi),
    Option.map_eq_some_iff] at hu
  obtain ⟨z, hz, rfl⟩ := hu
  have v1 := hs.series hne h2 g1
  have v2 := hs.feedback v1 hz g2
  refine hs.series2 (V_ofPC e2) v2 ?_ g3
  rw [M.dim_perm, ← e2.cdim, e3, hpl, (fb_some_lt hz).2.2.2, y.2]

theorem pullOutPermRhs_sound {R : Ops A} (hs : Sound M R) {p : List ℕ} {rest : List (Circ A)} {r : Circ A} {o i n : ℕ} {t : M.Mn n} {u : M.T}
    (hne : rest ≠ []) (hv : Engine.Prod (M.Vn n) (rest ++ [.perm p]) t) (hu : M.fb t.1 o i = some u)
    (h : pullOutPermRhs R rest p o i = .ok (some r)) : M.V r u := by
  obtain ⟨y, x, h2, h1, h3⟩ := mn_snoc hv
  obtain ⟨ho, hi, hd2, hdu⟩ := fb_some_lt hu
  rw [t.2] at ho hi hd2 hdu
  obtain ⟨hp, hx⟩ := V_perm.mp h1
  have hpl : p.length = n := by rw [← M.dim_perm p, ← hx, x.2]
  unfold pullOutPermRhs at h
  obtain ⟨k, red, e, e1, e2, e3, e4⟩ := factorRhs_ok hp (by rw [hpl]; exact hi)
  rw [e] at h
  rw [bind_ok] at h
  obtain ⟨⟨k', red'⟩, e', h⟩ := h
  injection e' with e'; cases e'
  simp only at h
  rw [bind_ok] at h; obtain ⟨s, g1, h⟩ := h
  rw [bind_ok] at h; obtain ⟨f, g2, h⟩ := h
  rw [bind_ok] at h; obtain ⟨c, g3, h⟩ := h
  injection h with h; injection h with h; subst h
  rw [h3, hx, M.fb_right k i o _ _ _ (thread_of_factor hp e1 e2 e3 e4) (by rw [M.dim_perm, y.2, hpl]) (by rw [y.2]; exact ho),
    Option.map_eq_some_iff] at hu
  obtain ⟨z, hz, rfl⟩ := hu
  have v1 := hs.series hne h2 g1
  have v2 := hs.feedback v1 hz g2
  refine hs.series2 v2 (V_ofPC e2) ?_ g3
  rw [M.dim_perm, ← e2.cdim, e3, hpl, (fb_some_lt hz).2.2.2, y.2]

theorem threeBlocks_sound {R : Ops A} (hs : Sound M R) {c before block after : Circ A} {port nb nm na : ℕ} {t : M.T} (hv : M.V c t)
    (h : threeBlocks R c port = .ok (before, block, after, nb, nm, na)) :
    ∃ P B Q : M.T, M.V before P ∧ M.V block B ∧ M.V after Q ∧ M.dim P = nb ∧ M.dim B = nm ∧ M.dim Q = na ∧
      t = M.concat P (M.concat B Q) ∧ ∃ j, j < nm ∧ port = nb + j := by
  unfold threeBlocks at h
  rw [bind_ok] at h; obtain ⟨⟨j, k⟩, g1, h⟩ := h
  simp only at h
  rw [bind_ok] at h; obtain ⟨st, g2, h⟩ := h
  rw [bind_ok] at h; obtain ⟨nblock, g3, h⟩ := h
  rw [bind_ok] at h; obtain ⟨bs, g4, h⟩ := h
  obtain ⟨z, i1, i2, i3⟩ := indexInBlock_sound hv g2 g1
  rw [getItem_eq_ok_iff] at g3
  rw [i1] at g3; injection g3 with g3; subst g3
  split at h
  · injection h with h; cases h
    have hsum : ([(st.take k).sum, nm, (st.drop (k + 1)).sum] : List ℕ).sum = M.dim t := by
      rw [← hv.cdim, ← blockStructure_sum c g2]
      conv_rhs => rw [← List.take_append_drop (k + 1) st, List.sum_append, sum_take_succ i1]
      simp only [List.sum_cons, List.sum_nil]; omega
    obtain ⟨ts, j1, j2, j3⟩ := getBlocks_sound hs hv hsum g4
    cases j1 with
    | cons a1 j1 => cases j1 with
      | cons a2 j1 => cases j1 with
        | cons a3 j1 => cases j1 with
          | nil =>
            simp only [List.map_cons, List.map_nil, List.cons.injEq, and_true] at j2
            refine ⟨_, _, _, a1, a2, a3, j2.1, j2.2.1, j2.2.2, ?_, j, i2, i3⟩
            rw [j3, List.prod_cons, List.prod_cons, List.prod_cons, List.prod_nil, mul_one]; rfl
  · cases h

theorem concat3_sound {R : Ops A} (hs : Sound M R) {x y z c : Circ A} {a b d : M.T} (hx : M.V x a) (hy : M.V y b) (hz : M.V z d)
    (h : concat3 R x y z = .ok c) : M.V c (M.concat a (M.concat b d)) := by
  unfold concat3 at h
  rw [bind_ok] at h; obtain ⟨xy, g1, h⟩ := h
  have := hs.concat2 (hs.concat2 hx hy g1) hz h
  rwa [M.concat_assoc] at this

/-- an identity block in the middle threads its channels -/
theorem thread_mid (P Q : M.T) {m j : ℕ} (hj : j < m) : M.Thread (M.dim P + j) (M.dim P + j) (M.concat P (M.concat (M.one m) Q))
    (M.concat P (M.concat (M.one (m - 1)) Q)) :=
  M.thread_concat_left _ _ _ _ P (M.thread_concat_right _ _ _ _ Q (M.thread_one m j hj))

/-- `P ⊕ B ⊕ Q = (P ⊕ 1 ⊕ Q) ≪ (1 ⊕ B ⊕ 1)` -/
theorem split_mid (P B Q : M.T) : M.concat P (M.concat B Q) = M.series (M.concat P (M.concat (M.one (M.dim B)) Q))
    (M.concat (M.one (M.dim P)) (M.concat B (M.one (M.dim Q)))) := by
  rw [M.interchange _ _ _ _ (by rw [M.dim_one]) (by simp [M.dim_concat, M.dim_one]), M.interchange _ _ _ _ (by rw [M.dim_one]) (by rw [M.dim_one]),
    M.series_one, M.one_series, M.series_one]

/-- `P ⊕ B ⊕ Q = (1 ⊕ B ⊕ 1) ≪ (P ⊕ 1 ⊕ Q)` -/
theorem split_mid' (P B Q : M.T) : M.concat P (M.concat B Q) = M.series (M.concat (M.one (M.dim P)) (M.concat B (M.one (M.dim Q))))
    (M.concat P (M.concat (M.one (M.dim B)) Q)) := by
  rw [M.interchange _ _ _ _ (by rw [M.dim_one]) (by simp [M.dim_concat, M.dim_one]), M.interchange _ _ _ _ (by rw [M.dim_one]) (by rw [M.dim_one]),
    M.series_one, M.one_series, M.one_series]

theorem pullOutBlocksLhs_sound {R : Ops A} (hs : Sound M R) {lhs : Circ A} {rest : List (Circ A)} {r : Circ A} {o i n : ℕ} {t : M.Mn n} {u : M.T}
    (hne : rest ≠ []) (hv : Engine.Prod (M.Vn n) (lhs :: rest) t) (hu : M.fb t.1 o i = some u)
    (h : pullOutBlocksLhs R lhs rest o i = .ok (some r)) : M.V r u := by
  obtain ⟨x, y, h1, h2, h3⟩ := mn_cons hv
  obtain ⟨ho, hi, hd2, hdu⟩ := fb_some_lt hu
  rw [t.2] at ho hi hd2 hdu
  unfold pullOutBlocksLhs at h
  rw [bind_ok] at h; obtain ⟨⟨before, block, after, nb, nm, na⟩, g1, h⟩ := h
  simp only at h
  obtain ⟨P, B, Q, v1, v2, v3, d1, d2, d3, hx, j, hj, hport⟩ := threeBlocks_sound hs h1 g1
  subst d1 d2 d3 hport
  have hxn : M.dim P + (M.dim B + M.dim Q) = n := by rw [← x.2, hx, M.dim_concat, M.dim_concat]
  split at h
  · rw [bind_ok] at h; obtain ⟨outer, g2, h⟩ := h
    rw [bind_ok] at h; obtain ⟨inner, g3, h⟩ := h
    rw [bind_ok] at h; obtain ⟨s, g4, h⟩ := h
    rw [bind_ok] at h; obtain ⟨f, g5, h⟩ := h
    rw [bind_ok] at h; obtain ⟨c, g6, h⟩ := h
    injection h with h; injection h with h; subst h
    have w1 := concat3_sound hs v1 (V_cid _) v3 g2
    have w2 := concat3_sound hs (V_cid _) v2 (V_cid _) g3
    have hdi : M.dim (M.concat (M.one (M.dim P)) (M.concat B (M.one (M.dim Q)))) = n := by simp only [M.dim_concat, M.dim_one]; exact hxn
    have w3 := hs.series (n := n) (m := ⟨_, hdi⟩ * y) (by simp)
      (Engine.Prod.cons (V := M.Vn n) (a := ⟨_, hdi⟩) w2 h2) g4
    rw [M.mul_val] at w3
    have hdm : M.dim (M.concat P (M.concat (M.one (M.dim B)) Q)) = n := by simp only [M.dim_concat, M.dim_one]; exact hxn
    rw [h3, hx, split_mid, M.series_assoc _ _ _ (by simp [M.dim_concat, M.dim_one])
      (by rw [y.2, M.dim_concat, M.dim_concat, M.dim_one, M.dim_one]; exact hxn),
      M.fb_left _ _ i _ _ _ (thread_mid P Q hj) (by rw [M.dim_series]; simp [M.dim_concat, M.dim_one])
        (by rw [M.dim_series, M.dim_concat, M.dim_concat, M.dim_one, M.dim_one]; omega), Option.map_eq_some_iff] at hu
    obtain ⟨z, hz, rfl⟩ := hu
    have w4 := hs.feedback w3 hz g5
    refine hs.series2 w1 w4 ?_ g6
    rw [(fb_some_lt hz).2.2.2, M.dim_series]
    simp only [M.dim_concat, M.dim_one]; omega
  · split at h
    · rename_i hbl
      rw [bind_ok] at h; obtain ⟨outer, g2, h⟩ := h
      rw [bind_ok] at h; obtain ⟨s, g4, h⟩ := h
      rw [bind_ok] at h; obtain ⟨f, g5, h⟩ := h
      rw [bind_ok] at h; obtain ⟨c, g6, h⟩ := h
      injection h with h; injection h with h; subst h
      have w1 := concat3_sound hs v1 (V_cid _) v3 g2
      have w3 := hs.series hne h2 g4
      have hB := beq_cid_val hbl v2
      rw [h3, hx, hB] at hu
      rw [M.fb_left _ _ i _ _ _ (thread_mid P Q hj) (by rw [y.2]; simp only [M.dim_concat, M.dim_one]; exact hxn)
        (by rw [y.2]; exact hi), Option.map_eq_some_iff] at hu
      obtain ⟨z, hz, rfl⟩ := hu
      have w4 := hs.feedback w3 hz g5
      refine hs.series2 w1 w4 ?_ g6
      rw [(fb_some_lt hz).2.2.2, y.2]
      simp only [M.dim_concat, M.dim_one]; omega
    · cases h

theorem pullOutBlocksRhs_sound {R : Ops A} (hs : Sound M R) {rhs : Circ A} {rest : List (Circ A)} {r : Circ A} {o i n : ℕ} {t : M.Mn n} {u : M.T}
    (hne : rest ≠ []) (hv : Engine.Prod (M.Vn n) (rest ++ [rhs]) t) (hu : M.fb t.1 o i = some u)
    (h : pullOutBlocksRhs R rest rhs o i = .ok (some r)) : M.V r u := by
  obtain ⟨y, x, h2, h1, h3⟩ := mn_snoc hv
  obtain ⟨ho, hi, hd2, hdu⟩ := fb_some_lt hu
  rw [t.2] at ho hi hd2 hdu
  unfold pullOutBlocksRhs at h
  rw [bind_ok] at h; obtain ⟨⟨before, block, after, nb, nm, na⟩, g1, h⟩ := h
  simp only at h
  obtain ⟨P, B, Q, v1, v2, v3, d1, d2, d3, hx, j, hj, hport⟩ := threeBlocks_sound hs h1 g1
  subst d1 d2 d3 hport
  have hxn : M.dim P + (M.dim B + M.dim Q) = n := by rw [← x.2, hx, M.dim_concat, M.dim_concat]
  split at h
  · rw [bind_ok] at h; obtain ⟨outer, g2, h⟩ := h
    rw [bind_ok] at h; obtain ⟨inner, g3, h⟩ := h
    rw [bind_ok] at h; obtain ⟨s, g4, h⟩ := h
    rw [bind_ok] at h; obtain ⟨f, g5, h⟩ := h
    rw [bind_ok] at h; obtain ⟨c, g6, h⟩ := h
    injection h with h; injection h with h; subst h
    have w1 := concat3_sound hs v1 (V_cid _) v3 g2
    have w2 := concat3_sound hs (V_cid _) v2 (V_cid _) g3
    have hdi : M.dim (M.concat (M.one (M.dim P)) (M.concat B (M.one (M.dim Q)))) = n := by simp only [M.dim_concat, M.dim_one]; exact hxn
    have w3 := hs.series (n := n) (m := y * ⟨_, hdi⟩) (by simp)
      (Engine.Prod.append (V := M.Vn n) (b := ⟨_, hdi⟩) h2 ((Engine.prod_single_iff (V := M.Vn n)).mpr w2)) g4
    rw [M.mul_val] at w3
    rw [h3, hx, split_mid', ← M.series_assoc _ _ _ (by rw [y.2]; simp only [M.dim_concat, M.dim_one]; exact hxn.symm)
      (by simp [M.dim_concat, M.dim_one]),
      M.fb_right _ _ o _ _ _ (thread_mid P Q hj) (by rw [M.dim_series, y.2]; simp only [M.dim_concat, M.dim_one]; exact hxn)
        (by rw [M.dim_series, y.2]; exact ho), Option.map_eq_some_iff] at hu
    obtain ⟨z, hz, rfl⟩ := hu
    have w4 := hs.feedback w3 hz g5
    refine hs.series2 w4 w1 ?_ g6
    rw [(fb_some_lt hz).2.2.2, M.dim_series, y.2]
    simp only [M.dim_concat, M.dim_one]; omega
  · split at h
    · rename_i hbl
      rw [bind_ok] at h; obtain ⟨outer, g2, h⟩ := h
      rw [bind_ok] at h; obtain ⟨s, g4, h⟩ := h
      rw [bind_ok] at h; obtain ⟨f, g5, h⟩ := h
      rw [bind_ok] at h; obtain ⟨c, g6, h⟩ := h
      injection h with h; injection h with h; subst h
      have w1 := concat3_sound hs v1 (V_cid _) v3 g2
      have w3 := hs.series hne h2 g4
      have hB := beq_cid_val hbl v2
      rw [h3, hx, hB] at hu
      rw [M.fb_right _ _ o _ _ _ (thread_mid P Q hj) (by rw [y.2]; simp only [M.dim_concat, M.dim_one]; exact hxn)
        (by rw [y.2]; exact ho), Option.map_eq_some_iff] at hu
      obtain ⟨z, hz, rfl⟩ := hu
      have w4 := hs.feedback w3 hz g5
      refine hs.series2 w4 w1 ?_ g6
      rw [(fb_some_lt hz).2.2.2, y.2]
      simp only [M.dim_concat, M.dim_one]; omega
    · cases h

theorem seriesFeedback_sound {s : Bool} (hst : Strict M s) {R : Ops A} (hs : Sound M R) {c r : Circ A} {o i : ℕ}
    {t u : M.T} (hv : M.V c t) (hu : M.fb t o i = some u) (h : seriesFeedback s R c o i = .ok (some r)) : M.V r u := by
  unfold seriesFeedback at h
  rw [bind_ok] at h; obtain ⟨a, g1, h⟩ := h
  rw [bind_ok] at h; obtain ⟨b, g2, h⟩ := h
  split at h
  · cases h
  · rw [bind_ok] at h; obtain ⟨x, g3, h⟩ := h
    injection h with h; injection h with h; subst h
    have hd := (fb_some_lt hu).2.2.1
    have v1 := hs.inverse hv (by omega) g1
    have v2 := hs.inverse v1 (by rw [M.dim_inv]; omega) g2
    rw [inv_inv] at v2
    exact feedbackMethod_sound hst hs v2 hu g3

theorem feedbackRules_sound {s : Bool} (hst : Strict M s) {R : Ops A} (hs : Sound M R) {c r : Circ A} {o i : ℕ}
    {t u : M.T} (hv : M.V c t) (hu : M.fb t o i = some u) (h : feedbackRules s R c o i = .ok (some r)) : M.V r u := by
  unfold feedbackRules at h
  split at h
  · rename_i ops
    rw [bind_ok] at h; obtain ⟨x, g1, h⟩ := h
    cases x with
    | some x =>
      simp only at h
      injection h with h; injection h with h; subst h
      exact seriesFeedback_sound hst hs hv hu g1
    | none =>
      simp only at h
      rw [bind_ok] at h; obtain ⟨y, g2, h⟩ := h
      obtain ⟨hne, hpos, hprod⟩ := V_series.mp hv
      cases y with
      | some y =>
        simp only at h
        injection h with h; injection h with h; subst h
        unfold feedbackLhsRules at g2
        split at g2
        · exact pullOutPermLhs_sound hs (by simp) hprod hu g2
        · exact pullOutBlocksLhs_sound hs (by simp) hprod hu g2
        · cases g2
      | none =>
        simp only at h
        unfold feedbackRhsRules at h
        split at h
        · cases h
        · rename_i hdl
          have hlast : ∀ last, ops.getLast? = some last → ops = ops.dropLast ++ [last] := by
            intro last hl
            rw [List.getLast?_eq_some_getLast hne] at hl
            injection hl with hl
            rw [← hl]; exact (List.dropLast_append_getLast hne).symm
          split at h
          · rename_i hl
            rw [hlast _ hl] at hprod
            exact pullOutPermRhs_sound hs hdl hprod hu h
          · rename_i hl
            rw [hlast _ hl] at hprod
            exact pullOutBlocksRhs_sound hs hdl hprod hu h
          · cases h
  · cases h

end CircAlg
end QNET.Circuit
