import Verif.Circuit.Inst
import Verif.Circuit.TermEngine

/-!
# Permutation circuits: values and the order used for termination

Tools for C78: an interpretation in which different permutations have different values (SLH triples over the complex numbers), and the
proof that `CPermutation._factorize_for_rhs` (circuit_algebra.py lines 868-911) makes the left permutation smaller.
-/

namespace QNET.Circuit

open QNET.Perm QNET.CPerm

variable {A : Type} [Ring A] [StarRing A] [Algebra ℂ A]

/-- an interpretation of circuits without SLH leaves over another coefficient ring -/
def transport {B : Type} [Ring B] [StarRing B] [Algebra ℂ B] (N : CircAlg B) : CircAlg A where
  T := N.T
  dim := N.dim
  one := N.one
  perm := N.perm
  series := N.series
  concat := N.concat
  inv := N.inv
  fb := N.fb
  Thread := N.Thread
  symv := N.symv
  dim_one := N.dim_one
  dim_perm := N.dim_perm
  dim_series := N.dim_series
  dim_concat := N.dim_concat
  dim_inv := N.dim_inv
  dim_sym := N.dim_sym
  series_assoc := N.series_assoc
  one_series := N.one_series
  series_one := N.series_one
  inv_series := N.inv_series
  series_inv := N.series_inv
  concat_assoc := N.concat_assoc
  zero_concat := N.zero_concat
  concat_zero := N.concat_zero
  one_concat_one := N.one_concat_one
  interchange := N.interchange
  zero := N.zero
  perm_range := N.perm_range
  perm_comp := N.perm_comp
  perm_concat := N.perm_concat
  block_perm := N.block_perm
  fb_dim := N.fb_dim
  thread_perm := N.thread_perm
  thread_one := N.thread_one
  thread_concat_left := N.thread_concat_left
  thread_concat_right := N.thread_concat_right
  fb_left := N.fb_left
  fb_right := N.fb_right
  fb_concat_right := N.fb_concat_right
  fb_concat_left := N.fb_concat_left
  fb_perm := N.fb_perm
  fb_inv := N.fb_inv
  leaf := fun _ => none
  leaf_dim := fun _ _ h => nomatch h
  leaf_series := fun _ _ _ _ h => nomatch h
  leaf_concat := fun _ _ _ _ h => nomatch h
  leaf_inv := fun _ _ h => nomatch h
  leaf_fb := fun _ _ _ _ _ _ h => nomatch h

/-- every symbol is a pass-through -/
noncomputable def idVal : Valuation ℂ where
  val _ n := SLH.passThrough n
  unitary _ n _ := SLH.passThrough_unitary n
  dim _ _ _ := rfl

variable (A) in
/-- the interpretation used for permutations -/
noncomputable def permAlg : CircAlg A := transport (symAlg idVal)

theorem permAlg_strict : CircAlg.Strict (permAlg A) true := .inl rfl

theorem permAlg_inj {p q : List ℕ} (hp : Valid p) (hq : Valid q) (h : (permAlg A).perm p = (permAlg A).perm q) : p = q := by
  change (Inst.perm p : Inst.T ℂ) = Inst.perm q at h
  unfold Inst.perm at h
  rw [dif_pos hp, dif_pos hq] at h
  have h := congrArg Subtype.val h
  change (SLH.ofPerm p : SLH ℂ) = SLH.ofPerm q at h
  have hn : p.length = q.length := congrArg SLH.n h
  apply List.ext_getElem hn
  intro j h1 h2
  have e := congrArg (fun s : SLH ℂ => s.S p[j] j) h
  simp only [SLH.ofPerm_S hp, SLH.ofPerm_S hq] at e
  rw [if_pos (List.getElem?_eq_getElem h1)] at e
  by_contra hc
  rw [if_neg (by rw [List.getElem?_eq_getElem h2]; simpa using fun e => hc e.symm)] at e
  exact one_ne_zero e

/-! ### the order of permutations -/

/-- the image tuple as a number with base `n` -/
def rank (n : ℕ) : List ℕ → ℕ
  | [] => 0
  | a :: l => a * n ^ l.length + rank n l

theorem rank_lt {n : ℕ} : ∀ l : List ℕ, (∀ x ∈ l, x < n) → rank n l < n ^ l.length
  | [], _ => by simp [rank]
  | a :: l, h => by
    have h1 := rank_lt l fun x hx => h x (by simp [hx])
    have h2 : (a + 1) * n ^ l.length ≤ n * n ^ l.length := Nat.mul_le_mul_right _ (h a (by simp))
    rw [rank, List.length_cons, Nat.pow_succ, Nat.mul_comm (n ^ l.length) n]
    rw [Nat.add_mul, Nat.one_mul] at h2
    omega

theorem rank_lex {n : ℕ} : ∀ (l m : List ℕ) (j : ℕ), l.length = m.length → (∀ x ∈ l, x < n) → (∀ i < j, l[i]? = m[i]?) →
    (∃ x y, l[j]? = some x ∧ m[j]? = some y ∧ x < y) → rank n l < rank n m
  | [], _, _, _, _, _, ⟨_, _, h, _⟩ => by simp at h
  | _ :: _, [], _, _, _, _, ⟨_, _, _, h, _⟩ => by simp at h
  | a :: l, b :: m, 0, hl, hn, _, ⟨x, y, h1, h2, h⟩ => by
    simp only [List.getElem?_cons_zero, Option.some.injEq] at h1 h2
    subst h1 h2
    simp only [List.length_cons, Nat.add_right_cancel_iff] at hl
    have h1 := rank_lt l fun x hx => hn x (by simp [hx])
    rw [rank, rank, ← hl]
    have h2 : (a + 1) * n ^ l.length ≤ b * n ^ l.length := Nat.mul_le_mul_right _ h
    rw [Nat.add_mul, Nat.one_mul] at h2
    omega
  | a :: l, b :: m, j + 1, hl, hn, hi, ⟨x, y, h1, h2, h⟩ => by
    have e := hi 0 (by omega)
    simp only [List.getElem?_cons_zero, Option.some.injEq] at e
    subst e
    simp only [List.length_cons, Nat.add_right_cancel_iff] at hl
    have := rank_lex l m j hl (fun x hx => hn x (by simp [hx])) (fun i h => by simpa using hi (i + 1) (by omega)) ⟨x, y, by simpa using h1, by simpa using h2, h⟩
    rw [rank, rank, ← hl]
    omega

theorem comp_fbp_val {p s : List ℕ} (hs : s.sum = p.length) {a i : ℕ} (ha : a < s.length) (hi : i < s[a]) :
    (comp (fbp (bpV p s) s) (fromBlocks (withinsV p 0 s)))[offsetOf s a + i]? =
      some (offsetOf (slotSizes (bpV p s) s) ((bpV p s)[a]'(by simpa using ha)) +
        ((withinsV p 0 s)[a]'(by rwa [withinsV_length]))[i]'(by rw [withinsV_elem_length p s ha]; exact hi)) := by
  have hbl : (bpV p s).length = s.length := by simp
  have hF := fbp_valid (bpV_valid p s) hbl
  have hFl := fbp_length (bpV_valid p s) hbl
  have hW := fromBlocks_valid (withinsV_valid p s 0)
  have hWl : (fromBlocks (withinsV p 0 s)).length = s.sum := by rw [fromBlocks_length, withinsV_map_length]
  have hll : (fbp (bpV p s) s).length = (fromBlocks (withinsV p 0 s)).length := by omega
  have hwl := withinsV_elem_length p s ha
  have hwv := withinsV_valid p s 0 _ (List.getElem_mem (by rwa [withinsV_length]) : (withinsV p 0 s)[a]'(by rwa [withinsV_length]) ∈ _)
  have e1 := fromBlocks_getElem? (withinsV p 0 s) (k := a) (j := i) (by rwa [withinsV_length]) (by rw [hwl]; exact hi)
  rw [withinsV_map_length] at e1
  have hwi : ((withinsV p 0 s)[a]'(by rwa [withinsV_length]))[i]'(by rw [hwl]; exact hi) < s[a] := by
    have := hwv.lt (i := i) (by rw [hwl]; exact hi); omega
  have e2 := fbp_getElem? (bpV_valid p s) hbl (k := a) (by simpa using ha) hwi
  rw [comp_getElem? hll hW e1, Nat.add_comm, e2]

/-- the first position at which the word `r` differs from `P` -/
theorem lex_core {n K : ℕ} {P r g off sz so bp : ℕ → ℕ} {w : ℕ → ℕ → ℕ}
    (hblk : ∀ i < n, ∃ a < K, ∃ t < sz a, i = off a + t)
    (hin : ∀ a < K, ∀ t < sz a, off a + t < n)
    (hg : ∀ a < K, ∀ t < sz a, g (off a + t) = so (bp a) + w a t)
    (hgn : ∀ i < n, g i < n) (hginj : ∀ i < n, ∀ j < n, g i = g j → i = j) (hgsurj : ∀ j < n, ∃ k < n, g k = j)
    (hr : ∀ i < n, r (g i) = P i) (hrinj : ∀ i < n, ∀ j < n, r i = r j → i = j)
    (hwlt : ∀ a < K, ∀ t < sz a, w a t < sz a) (hwsurj : ∀ a < K, ∀ u < sz a, ∃ t < sz a, w a t = u)
    (hw : ∀ a < K, ∀ t < sz a, ∀ u < sz a, (w a t < w a u ↔ P (off a + t) < P (off a + u)))
    (hbp : ∀ a < K, ∀ b < K, bp a < bp b → ∃ t < sz a, ∀ u < sz b, P (off a + t) < P (off b + u))
    (hoff : ∀ a b, a < b → b < K → off a + sz a ≤ off b)
    (hso : ∀ a < K, ∀ b < K, bp a < bp b → so (bp a) + sz a ≤ so (bp b))
    (hbpinj : ∀ a < K, ∀ b < K, bp a = bp b → a = b)
    {j : ℕ} (hj : j < n) (hpre : ∀ i < j, r i = P i) (hne : r j ≠ P j) : r j < P j := by
  have fix : ∀ i < j, g i = i := fun i hi => hrinj _ (hgn i (by omega)) _ (by omega) (by rw [hr i (by omega), hpre i hi])
  have hgj : g j ≠ j := fun h => hne (by rw [← hr j hj, h])
  have hgj' : j < g j := by
    rcases Nat.lt_or_ge (g j) j with h | h
    · have := hginj _ (hgn j hj) _ hj (fix _ h)
      omega
    · omega
  obtain ⟨k, hk, e⟩ := hgsurj j hj
  have hkj : j < k := by
    rcases Nat.lt_trichotomy k j with h | h | h
    · rw [fix k h] at e; omega
    · subst h; exact absurd e hgj
    · exact h
  have hrj : r j = P k := by rw [← hr k hk, e]
  rw [hrj]
  obtain ⟨a, ha, t, ht, rfl⟩ := hblk j hj
  obtain ⟨b, hb, u, hu, rfl⟩ := hblk k hk
  have gj := hg a ha t ht
  have gk := hg b hb u hu
  rcases Nat.lt_trichotomy a b with hab | hab | hab
  · have h1 := hwlt a ha t ht
    have h2 := hwlt b hb u hu
    have hbpab : bp b < bp a := by
      rcases Nat.lt_trichotomy (bp a) (bp b) with h | h | h
      · have := hso a ha b hb h
        omega
      · have := hbpinj a ha b hb h
        omega
      · exact h
    have ho := hoff a b hab hb
    have hso' := hso b hb a ha hbpab
    have t0 : t = 0 := by
      by_contra hc
      have := hg a ha 0 (by omega)
      rw [fix _ (by omega)] at this
      omega
    have u0 : w b u = 0 := by
      by_contra hc
      obtain ⟨v, hv, ev⟩ := hwsurj b hb (w b u - 1) (by omega)
      have h3 := hg b hb v hv
      have h4 : off a + t - 1 < off a + t := by omega
      have h5 := fix _ h4
      have h6 : g (off b + v) = g (off a + t - 1) := by rw [h5, h3, ev]; omega
      have := hginj _ (hin b hb v hv) _ (by omega) h6
      omega
    obtain ⟨v, hv, hlt⟩ := hbp b hb a ha hbpab
    have h3 := hlt t ht
    have h4 : ¬ P (off b + v) < P (off b + u) := fun h => by
      have := (hw b hb v hv u hu).mpr h
      omega
    omega
  · subst hab
    exact (hw a ha u hu t ht).mp (by omega)
  · have := hoff b a hab ha
    omega

theorem getD_eq {l : List ℕ} {i : ℕ} (h : i < l.length) : l.getD i 0 = l[i] := by
  rw [List.getD_eq_getElem?_getD, List.getElem?_eq_getElem h, Option.getD_some]

theorem factor_rank {p s res : List ℕ} (hp : Valid p) (hpos : ∀ x ∈ s, 0 < x) (hs : s.sum = p.length) (hr : Valid res) (hl : res.length = p.length)
    (he : comp res (comp (fbp (bpV p s) s) (fromBlocks (withinsV p 0 s))) = p) (hne : res ≠ p) : rank p.length res < rank p.length p := by
  have hbl : (bpV p s).length = s.length := by simp
  have hbv := bpV_valid p s
  have hF := fbp_valid hbv hbl
  have hFl := fbp_length hbv hbl
  have hW := fromBlocks_valid (withinsV_valid p s 0)
  have hWl : (fromBlocks (withinsV p 0 s)).length = s.sum := by rw [fromBlocks_length, withinsV_map_length]
  have hgv : Valid (comp (fbp (bpV p s) s) (fromBlocks (withinsV p 0 s))) := comp_valid (by omega) hF hW
  have hgl : (comp (fbp (bpV p s) s) (fromBlocks (withinsV p 0 s))).length = p.length := by rw [comp_length]; omega
  have hval := fun {a i : ℕ} (ha : a < s.length) (hi : i < s[a]) => comp_fbp_val (p := p) hs ha hi
  generalize comp (fbp (bpV p s) s) (fromBlocks (withinsV p 0 s)) = g at *
  have hex : ∃ j, j < p.length ∧ res.getD j 0 ≠ p.getD j 0 := by
    by_contra hc
    push Not at hc
    refine hne (List.ext_getElem hl fun i h1 h2 => ?_)
    have := hc i h2
    rwa [getD_eq h1, getD_eq h2] at this
  classical
  obtain ⟨hj, hd⟩ := Nat.find_spec hex
  have hmin : ∀ i < Nat.find hex, res.getD i 0 = p.getD i 0 := fun i hi => by
    have := Nat.find_min hex hi
    push Not at this
    exact this (by omega)
  generalize Nat.find hex = j at hj hd hmin
  have hwl := fun {a : ℕ} (ha : a < s.length) => withinsV_elem_length p s ha
  have hwv : ∀ {a : ℕ} (ha : a < s.length), Valid ((withinsV p 0 s)[a]'(by rwa [withinsV_length])) := fun {a} ha => withinsV_valid p s 0 _ (List.getElem_mem _)
  have hoffle := fun {a : ℕ} (ha : a < s.length) => off_add_le s ha
  have inj : ∀ {q : List ℕ}, Valid q → ∀ i < q.length, ∀ j < q.length, q.getD i 0 = q.getD j 0 → i = j := fun {q} hq i hi j hj e => by
    rw [getD_eq hi, getD_eq hj] at e
    exact (List.Nodup.getElem_inj_iff hq.nodup).mp e
  have key : res.getD j 0 < p.getD j 0 := by
    refine lex_core (n := p.length) (K := s.length) (P := fun i => p.getD i 0) (r := fun i => res.getD i 0) (g := fun i => g.getD i 0) (off := offsetOf s)
      (sz := fun a => s.getD a 0) (so := offsetOf (slotSizes (bpV p s) s)) (bp := fun a => (bpV p s).getD a 0) (w := fun a t => ((withinsV p 0 s).getD a []).getD t 0)
      ?_ ?_ ?_ ?_ ?_ ?_ ?_ ?_ ?_ ?_ ?_ ?_ ?_ ?_ ?_ hj hmin hd
    · intro i hi
      obtain ⟨k, hk, t, ht, e⟩ := exists_block s i (by omega)
      exact ⟨k, hk, t, by rw [getD_eq hk]; exact ht, e⟩
    · intro a ha t ht
      rw [getD_eq ha] at ht
      have := hoffle ha
      omega
    · intro a ha t ht
      rw [getD_eq ha] at ht
      have := hval ha ht
      have hwa := hwl ha
      rw [List.getD_eq_getElem?_getD, this, Option.getD_some, getD_eq (by rw [hbl]; exact ha), List.getD_eq_getElem?_getD (l := withinsV p 0 s),
        List.getElem?_eq_getElem (by rwa [withinsV_length]), Option.getD_some, getD_eq (by rw [hwa]; exact ht)]
    · intro i hi
      have hi' : i < g.length := by omega
      rw [getD_eq hi']
      have := hgv.lt hi'
      omega
    · intro i hi j hj e
      exact inj hgv i (by omega) j (by omega) e
    · intro i hi
      have : i ∈ g := (hgv.mem_iff i).mpr (by omega)
      obtain ⟨k, hk, e⟩ := List.mem_iff_getElem.mp this
      exact ⟨k, by omega, by rw [getD_eq hk]; exact e⟩
    · intro i hi
      have hi' : i < g.length := by omega
      have h1 : (comp res g)[i]? = p[i]? := by rw [he]
      rw [comp_getElem? (by omega) hgv (List.getElem?_eq_getElem hi')] at h1
      rw [getD_eq hi', List.getD_eq_getElem?_getD, List.getD_eq_getElem?_getD, h1]
    · intro i hi j hj e
      exact inj hr i (by omega) j (by omega) e
    · intro a ha t ht
      rw [getD_eq ha] at ht ⊢
      have hwa := hwl ha
      have := (hwv ha).lt (i := t) (by omega)
      rw [List.getD_eq_getElem?_getD (l := withinsV p 0 s), List.getElem?_eq_getElem (by rwa [withinsV_length]), Option.getD_some, getD_eq (by omega)]
      omega
    · intro a ha u hu
      rw [getD_eq ha] at hu
      have hwa := hwl ha
      have : u ∈ (withinsV p 0 s)[a]'(by rwa [withinsV_length]) := ((hwv ha).mem_iff u).mpr (by omega)
      obtain ⟨k, hk, e⟩ := List.mem_iff_getElem.mp this
      refine ⟨k, by rw [getD_eq ha]; omega, ?_⟩
      rw [List.getD_eq_getElem?_getD (l := withinsV p 0 s), List.getElem?_eq_getElem (by rwa [withinsV_length]), Option.getD_some, getD_eq hk, e]
    · intro a ha t ht u hu
      rw [getD_eq ha] at ht hu
      have hwa := hwl ha
      have := withinsV_lt hp hs ha ht hu
      have h1 := hoffle ha
      rw [List.getD_eq_getElem?_getD (l := withinsV p 0 s), List.getElem?_eq_getElem (by rwa [withinsV_length]), Option.getD_some, getD_eq (by omega),
        getD_eq (by omega), getD_eq (by omega), getD_eq (by omega)]
      exact this
    · intro a ha b hb h
      rw [getD_eq (by omega), getD_eq (by omega), bpV_lt hp hpos hs ha hb] at h
      obtain ⟨⟨t, ht, e1⟩, -⟩ := minsV_spec hpos hs ha
      obtain ⟨-, h2⟩ := minsV_spec hpos hs hb
      refine ⟨t, by rw [getD_eq ha]; exact ht, fun u hu => ?_⟩
      rw [getD_eq hb] at hu
      have := hoffle hb
      have := h2 u hu _ (List.getElem?_eq_getElem (by omega))
      rw [List.getD_eq_getElem?_getD, e1, Option.getD_some, getD_eq (by omega)]
      omega
    · intro a b hab hb
      rw [getD_eq (by omega)]
      exact offsetOf_step s hab (by omega)
    · intro a ha b hb h
      have h1 := slotSizes_getElem hbv hbl (k := a) (by omega)
      have h2 := hbv.lt (i := a) (by omega)
      rw [getD_eq (by omega), getD_eq (by omega)] at h ⊢
      have h3 := offsetOf_step (slotSizes (bpV p s) s) h (by rw [slotSizes_length]; exact h2)
      rw [h1] at h3
      rw [getD_eq (by omega)]
      exact h3
    · intro a ha b hb h
      exact inj hbv a (by omega) b (by omega) h
  refine rank_lex res p j hl (fun x hx => ?_) (fun i hi => ?_) ⟨res[j]'(by omega), p[j], List.getElem?_eq_getElem _, List.getElem?_eq_getElem _, ?_⟩
  · rw [← hl]
    exact (hr.mem_iff x).mp hx
  · have := hmin i hi
    rw [getD_eq (by omega), getD_eq (by omega)] at this
    rw [List.getElem?_eq_getElem (by omega), List.getElem?_eq_getElem (by omega), this]
  · rwa [getD_eq (by omega), getD_eq hj] at key

end QNET.Circuit
