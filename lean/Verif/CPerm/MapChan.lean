import Verif.CPerm.Model
import Verif.Perm.Within
import Verif.SLH.AffFb

/-! # Lemmas about `map_channels` -/

namespace QNET.CPerm

open QNET.Perm QNET.Aff

theorem create_ok {p : List Nat} (h : Valid p) :
    create p = .ok (if p = List.range p.length then .cid p.length else .perm p) := by
  unfold create
  simp only [(check_iff p).mpr h, Bool.not_true, Bool.false_eq_true, if_false]
  split <;> rfl

theorem create_err {p : List Nat} (h : ¬ Valid p) : create p = .error .badPermutation := by
  unfold create
  have : check p = false := by
    cases hc : check p
    · rfl
    · exact absurd ((check_iff p).mp hc) h
  simp [this]

theorem create_tuple {p : List Nat} {c : PC} (h : create p = .ok c) : Valid p ∧ c.tuple = p ∧ c.cdim = p.length := by
  by_cases hv : Valid p
  · rw [create_ok hv] at h
    refine ⟨hv, ?_⟩
    split at h <;> injection h with h <;> subst h
    · rename_i e; exact ⟨e.symm, rfl⟩
    · exact ⟨rfl, rfl⟩
  · rw [create_err hv] at h; cases h

theorem create_inj {c d : PC} (p q : List Nat) (hc : create p = .ok c) (hd : create q = .ok d)
    (h : c.tuple = d.tuple) : c = d := by
  have h1 := create_tuple hc
  have h2 := create_tuple hd
  have : p = q := by rw [← h1.2.1, ← h2.2.1, h]
  subst this
  rw [hc] at hd; injection hd

/-! ## `removeValues`, `checkKeys`, `fill` -/

theorem removeValues_ok {n : Nat} : ∀ (free : List Nat) (m : List (Nat × Nat)), free.Nodup →
    (m.map Prod.snd).Nodup → (∀ v ∈ m.map Prod.snd, v < n ∧ v ∈ free) →
    removeValues n free m = .ok (free.diff (m.map Prod.snd))
  | free, [], _, _, _ => by simp [removeValues]
  | free, (k, v) :: rest, hf, hn, h => by
    simp only [List.map_cons, List.nodup_cons] at hn
    obtain ⟨hv, hm⟩ := h v (by simp)
    unfold removeValues
    rw [if_neg (by omega), if_pos hm, removeValues_ok (free.erase v) rest (hf.erase v) hn.2]
    · simp [List.diff_cons]
    · intro w hw
      obtain ⟨h1, h2⟩ := h w (by simp at hw ⊢; tauto)
      exact ⟨h1, (List.mem_erase_of_ne (by rintro rfl; exact hn.1 hw)).mpr h2⟩

theorem removeValues_err {n : Nat} : ∀ (free : List Nat) (m : List (Nat × Nat)), free.Nodup →
    ¬ ((m.map Prod.snd).Nodup ∧ (∀ v ∈ m.map Prod.snd, v < n ∧ v ∈ free)) →
    removeValues n free m = .error .valueError
  | free, [], _, h => by simp at h
  | free, (k, v) :: rest, hf, h => by
    unfold removeValues
    by_cases hv : v ≥ n
    · rw [if_pos hv]
    · rw [if_neg hv]
      by_cases hm : v ∈ free
      · rw [if_pos hm]
        apply removeValues_err _ _ (hf.erase v)
        rintro ⟨h1, h2⟩
        apply h
        simp only [List.map_cons, List.nodup_cons]
        refine ⟨⟨fun hc => ?_, h1⟩, ?_⟩
        · exact (hf.mem_erase_iff.mp (h2 v hc).2).1 rfl
        · intro w hw
          simp only [List.mem_cons] at hw
          rcases hw with rfl | hw
          · exact ⟨by omega, hm⟩
          · exact ⟨(h2 w hw).1, List.mem_of_mem_erase (h2 w hw).2⟩
      · rw [if_neg hm]

theorem checkKeys_ok {n : Nat} : ∀ (m : List (Nat × Nat)), (∀ k ∈ m.map Prod.fst, k < n) → checkKeys n m = .ok ()
  | [], _ => rfl
  | (k, v) :: rest, h => by
    unfold checkKeys
    rw [if_neg (by have := h k (by simp); omega)]
    exact checkKeys_ok rest (fun w hw => h w (by simp at hw ⊢; tauto))

theorem checkKeys_err {n : Nat} : ∀ (m : List (Nat × Nat)), ¬ (∀ k ∈ m.map Prod.fst, k < n) →
    checkKeys n m = .error .valueError
  | [], h => by simp at h
  | (k, v) :: rest, h => by
    unfold checkKeys
    by_cases hk : k ≥ n
    · rw [if_pos hk]
    · rw [if_neg hk]
      apply checkKeys_err rest
      intro h2; apply h
      intro w hw
      simp only [List.map_cons, List.mem_cons] at hw
      rcases hw with rfl | hw
      · omega
      · exact h2 w hw

/-- what the filling loop computes -/
theorem fill_spec (m : List (Nat × Nat)) : ∀ (ks free : List Nat), free.Pairwise (· < ·) →
    (ks.filter (fun k => (m.lookup k).isNone)).length = free.length →
    ∃ r, fill m free ks = .ok r ∧ r.length = ks.length ∧
      (∀ (i k v : Nat), ks[i]? = some k → m.lookup k = some v → r[i]? = some v) ∧
      r.Perm (ks.filterMap (fun k => m.lookup k) ++ free) ∧
      (∀ (i k x : Nat), ks[i]? = some k → m.lookup k = none → r[i]? = some x → x ∈ free) ∧
      (∀ (i j k l x y : Nat), i < j → ks[i]? = some k → ks[j]? = some l → m.lookup k = none → m.lookup l = none →
        r[i]? = some x → r[j]? = some y → x < y)
  | [], free, hf, hl => by
    have : free = [] := by cases free <;> simp_all
    subst this
    exact ⟨[], rfl, rfl, by simp, by simp, by simp, by simp⟩
  | k :: ks, free, hf, hl => by
    unfold fill
    cases hk : m.lookup k with
    | some v =>
      obtain ⟨r, e, h1, h2, h3, h4, h5⟩ := fill_spec m ks free hf (by simpa [hk] using hl)
      refine ⟨v :: r, by simp [e]; rfl, by simp [h1], ?_, ?_, ?_, ?_⟩
      · rintro (_ | i) k' v' hk' hv'
        · simp at hk'; subst hk'; rw [hk] at hv'; simpa using hv'
        · exact h2 i k' v' (by simpa using hk') hv'
      · simp [List.filterMap_cons, hk, h3]
      · rintro (_ | i) k' x hk' hv' hx
        · simp at hk'; subst hk'; rw [hk] at hv'; simp at hv'
        · exact h4 i k' x (by simpa using hk') hv' (by simpa using hx)
      · rintro (_ | i) (_ | j) k' l' x y hij hk' hl' hnk hnl hx hy
        · omega
        · simp at hk'; subst hk'; rw [hk] at hnk; simp at hnk
        · omega
        · exact h5 i j k' l' x y (by omega) (by simpa using hk') (by simpa using hl') hnk hnl (by simpa using hx)
            (by simpa using hy)
    | none =>
      cases free with
      | nil => simp [hk] at hl
      | cons f fs =>
        simp only
        rw [List.pairwise_cons] at hf
        obtain ⟨r, e, h1, h2, h3, h4, h5⟩ := fill_spec m ks fs hf.2 (by simpa [hk] using hl)
        refine ⟨f :: r, by simp [e]; rfl, by simp [h1], ?_, ?_, ?_, ?_⟩
        · rintro (_ | i) k' v' hk' hv'
          · simp at hk'; subst hk'; rw [hk] at hv'; simp at hv'
          · exact h2 i k' v' (by simpa using hk') hv'
        · simp only [List.filterMap_cons, hk]
          exact (h3.cons f).trans List.perm_middle.symm
        · rintro (_ | i) k' x hk' hv' hx
          · simp at hx; simp [hx]
          · exact List.mem_cons_of_mem _ (h4 i k' x (by simpa using hk') hv' (by simpa using hx))
        · rintro (_ | i) (_ | j) k' l' x y hij hk' hl' hnk hnl hx hy
          · omega
          · simp at hx; subst hx
            exact hf.1 y (h4 j l' y (by simpa using hl') hnl (by simpa using hy))
          · omega
          · exact h5 i j k' l' x y (by omega) (by simpa using hk') (by simpa using hl') hnk hnl (by simpa using hx)
              (by simpa using hy)

theorem lookup_eq_none_iff' {m : List (Nat × Nat)} {k : Nat} : m.lookup k = none ↔ k ∉ m.map Prod.fst := by
  induction m with
  | nil => simp
  | cons a t ih =>
    obtain ⟨x, y⟩ := a
    simp only [List.lookup_cons, List.map_cons, List.mem_cons]
    by_cases h : k = x
    · subst h; simp
    · have : (k == x) = false := by simpa using h
      rw [this]; simp [ih, h]

theorem lookup_eq_some_iff' {m : List (Nat × Nat)} (hn : (m.map Prod.fst).Nodup) {k v : Nat} :
    m.lookup k = some v ↔ (k, v) ∈ m := by
  induction m with
  | nil => simp
  | cons a t ih =>
    obtain ⟨x, y⟩ := a
    simp only [List.map_cons, List.nodup_cons] at hn
    simp only [List.lookup_cons, List.mem_cons, Prod.mk.injEq]
    by_cases h : k = x
    · subst h
      simp only [beq_self_eq_true, Option.some.injEq, true_and]
      constructor
      · rintro rfl; exact Or.inl rfl
      · rintro (rfl | h)
        · rfl
        · exact absurd (List.mem_map.mpr ⟨_, h, rfl⟩) hn.1
    · have : (k == x) = false := by simpa using h
      rw [this]; simp [ih hn.2, h]

theorem filterMap_lookup_perm {m : List (Nat × Nat)} {n : Nat} (hk : (m.map Prod.fst).Nodup)
    (hv : (m.map Prod.snd).Nodup) (hkn : ∀ k ∈ m.map Prod.fst, k < n) :
    ((List.range n).filterMap (fun k => m.lookup k)).Perm (m.map Prod.snd) := by
  apply (List.perm_ext_iff_of_nodup ?_ hv).mpr
  · intro v
    simp only [List.mem_filterMap, List.mem_range, List.mem_map]
    constructor
    · rintro ⟨k, _, h⟩; exact ⟨_, (lookup_eq_some_iff' hk).mp h, rfl⟩
    · rintro ⟨⟨k, v'⟩, h, rfl⟩
      exact ⟨k, hkn k (List.mem_map.mpr ⟨_, h, rfl⟩), (lookup_eq_some_iff' hk).mpr h⟩
  · apply List.Nodup.filterMap _ List.nodup_range
    intro a a' b h1 h2
    have h1 := (lookup_eq_some_iff' hk).mp h1
    have h2 := (lookup_eq_some_iff' hk).mp h2
    have := List.inj_on_of_nodup_map hv h1 h2 rfl
    exact (Prod.mk.inj this).1

theorem mapTuple_ok {m : List (Nat × Nat)} {n : Nat} (hk : (m.map Prod.fst).Nodup)
    (hv : (m.map Prod.snd).Nodup) (hkn : ∀ k ∈ m.map Prod.fst, k < n) (hvn : ∀ v ∈ m.map Prod.snd, v < n) :
    ∃ p, mapTuple m n = .ok p ∧ p.length = n ∧ Valid p ∧ (∀ (k v : Nat), (k, v) ∈ m → p[k]? = some v) ∧
      (∀ (i j x y : Nat), i < j → i ∉ m.map Prod.fst → j ∉ m.map Prod.fst → p[i]? = some x → p[j]? = some y → x < y) := by
  have hr := removeValues_ok (n := n) (List.range n) m List.nodup_range hv
    (fun v h => ⟨hvn v h, List.mem_range.mpr (hvn v h)⟩)
  have hdn : ((List.range n).diff (m.map Prod.snd)).Nodup := List.nodup_range.diff
  have hperm : (m.map Prod.snd ++ (List.range n).diff (m.map Prod.snd)).Perm (List.range n) := by
    apply (List.perm_ext_iff_of_nodup ?_ List.nodup_range).mpr
    · intro x
      simp only [List.mem_append, List.nodup_range.mem_sdiff_iff, List.mem_range]
      constructor
      · rintro (h | h)
        · exact hvn x h
        · exact h.1
      · intro h; by_cases hx : x ∈ m.map Prod.snd
        · exact Or.inl hx
        · exact Or.inr ⟨h, hx⟩
    · rw [List.nodup_append]
      refine ⟨hv, hdn, ?_⟩
      rintro a ha b hb rfl
      exact (List.nodup_range.mem_sdiff_iff.mp hb).2 ha
  have hfm := filterMap_lookup_perm hk hv hkn
  have hlen : ((List.range n).filter (fun k => (m.lookup k).isNone)).length =
      ((List.range n).diff (m.map Prod.snd)).length := by
    have e1 := List.length_eq_length_filter_add (l := List.range n) (fun k => (m.lookup k).isNone)
    have e2 : ((List.range n).filter (fun k => !(m.lookup k).isNone)).length = (m.map Prod.snd).length := by
      rw [← hfm.length_eq, List.length_filterMap_eq_countP, List.countP_eq_length_filter]
      congr 1
      apply List.filter_congr
      intro x _; cases m.lookup x <;> rfl
    have e3 := hperm.length_eq
    simp only [List.length_append, List.length_range] at e1 e2 e3
    omega
  obtain ⟨r, e, h1, h2, h3, h4, h5⟩ := fill_spec m (List.range n) ((List.range n).diff (m.map Prod.snd))
    ((List.pairwise_lt_range (n := n)).sublist (List.diff_sublist _ _)) hlen
  have hl : r.length = n := by simpa using h1
  refine ⟨r, ?_, hl, ?_, ?_, ?_⟩
  · unfold mapTuple
    rw [hr, checkKeys_ok m hkn]; exact e
  · unfold Valid
    rw [hl]
    exact h3.trans ((hfm.append_right _).trans hperm)
  · intro k v h
    exact h2 k k v (by
      have := hkn k (List.mem_map.mpr ⟨_, h, rfl⟩)
      simp [List.getElem?_range, this]) ((lookup_eq_some_iff' hk).mpr h)
  · intro i j x y hij hi hj hx hy
    have hi' : i < n := by have := (List.getElem?_eq_some_iff.mp hx).1; omega
    have hj' : j < n := by have := (List.getElem?_eq_some_iff.mp hy).1; omega
    exact h5 i j i j x y hij (by simp [hi']) (by simp [hj'])
      (lookup_eq_none_iff'.mpr hi) (lookup_eq_none_iff'.mpr hj) hx hy

theorem mapTuple_err {m : List (Nat × Nat)} {n : Nat} (h : ¬ ((m.map Prod.snd).Nodup ∧
    (∀ k ∈ m.map Prod.fst, k < n) ∧ (∀ v ∈ m.map Prod.snd, v < n))) : mapTuple m n = .error .valueError := by
  unfold mapTuple
  by_cases h1 : (m.map Prod.snd).Nodup ∧ (∀ v ∈ m.map Prod.snd, v < n ∧ v ∈ List.range n)
  · rw [removeValues_ok _ _ List.nodup_range h1.1 h1.2, checkKeys_err m]
    · rfl
    · intro h2; exact h ⟨h1.1, h2, fun v hv => (h1.2 v hv).1⟩
  · rw [removeValues_err _ _ List.nodup_range h1]; rfl

/-! ## A single mapping -/

/-- inverse of `up` off the skipped index -/
def down (o k : Nat) : Nat := if k < o then k else k - 1

theorem up_down {o k : Nat} (h : k ≠ o) : up o (down o k) = k := by unfold up down; grind
theorem down_up (o k : Nat) : down o (up o k) = k := by unfold up down; grind
theorem down_lt {o k n : Nat} (h : k ≠ o) (hk : k < n) (ho : o < n) : down o k < n - 1 := by
  unfold down; split <;> omega
theorem up_strictMono {o a b : Nat} (h : a < b) : up o a < up o b := by unfold up; split <;> split <;> omega
theorem down_strictMono {o a b : Nat} (ha : a ≠ o) (hb : b ≠ o) (h : a < b) : down o a < down o b := by
  unfold down; split <;> split <;> omega

theorem strictMono_id {f : Nat → Nat} {m : Nat} (hlt : ∀ k < m, f k < m) (hm : ∀ a b, a < b → b < m → f a < f b) :
    ∀ k < m, f k = k := by
  have h1 : ∀ k, k < m → k ≤ f k := by
    intro k
    induction k with
    | zero => intro _; omega
    | succ k ih => intro hk; have := ih (by omega); have := hm k (k+1) (by omega) hk; omega
  have h2 : ∀ d k, k + d + 1 = m → f k + d + 1 ≤ m := by
    intro d
    induction d with
    | zero => intro k hk; have := hlt k (by omega); omega
    | succ d ih => intro k hk; have := ih (k + 1) (by omega); have := hm k (k+1) (by omega) (by omega); omega
  intro k hk
  have := h1 k hk
  have := h2 (m - k - 1) k (by omega)
  omega

/-- the tuple of `map_channels({a: b}, n)` -/
theorem mapTuple_single {a b n : Nat} (ha : a < n) (hb : b < n) :
    ∃ p, mapTuple [(a, b)] n = .ok p ∧ p.length = n ∧ Valid p ∧ p[a]? = some b ∧
      ∀ l < n - 1, p[up a l]? = some (up b l) := by
  obtain ⟨p, e, hl, hv, h1, h2⟩ := mapTuple_ok (m := [(a, b)]) (n := n) (by simp) (by simp) (by simpa using ha)
    (by simpa using hb)
  have hab : p[a]? = some b := h1 a b (by simp)
  refine ⟨p, e, hl, hv, hab, ?_⟩
  have hne : ∀ l, l < n - 1 → ∃ x, p[up a l]? = some x ∧ x ≠ b ∧ x < n := by
    intro l hl'
    have hup : up a l < p.length := by rw [hl]; exact up_lt hl'
    refine ⟨p[up a l], List.getElem?_eq_getElem hup, ?_, by rw [← hl]; exact hv.lt hup⟩
    intro hc
    have hab' := (List.getElem?_eq_some_iff.mp hab)
    have := (hv.nodup.getElem_inj_iff (hi := hup) (hj := hab'.1)).mp (hc.trans hab'.2.symm)
    exact up_ne a l this
  have key := strictMono_id (f := fun l => down b (p.getD (up a l) 0)) (m := n - 1) ?_ ?_
  · intro l hl'
    obtain ⟨x, hx, hxb, hxn⟩ := hne l hl'
    have := key l hl'
    simp only [List.getD_eq_getElem?_getD, hx, Option.getD_some] at this
    rw [hx, ← this, up_down hxb]
  · intro l hl'
    obtain ⟨x, hx, hxb, hxn⟩ := hne l hl'
    simp only [List.getD_eq_getElem?_getD, hx, Option.getD_some]
    exact down_lt hxb hxn hb
  · intro l k hlk hk
    obtain ⟨x, hx, hxb, hxn⟩ := hne l (by omega)
    obtain ⟨y, hy, hyb, hyn⟩ := hne k hk
    simp only [List.getD_eq_getElem?_getD, hx, hy, Option.getD_some]
    exact down_strictMono hxb hyb (h2 _ _ x y (up_strictMono hlk) (by simpa using up_ne a l) (by simpa using up_ne a k) hx hy)

end QNET.CPerm
