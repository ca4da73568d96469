import Verif.Circuit.Alg
import Verif.CPerm.Thm
import Verif.Perm.Thm

/-! # Soundness of the block decompositions of circuits -/

namespace QNET.Circuit

open QNET.Perm QNET.CPerm

variable {A : Type} [Ring A] [StarRing A] [Algebra ℂ A]

theorem bind_ok {α β : Type} {x : Res α} {f : α → Res β} {v : β} :
    (x >>= f) = .ok v ↔ ∃ a, x = .ok a ∧ f a = .ok v := by
  cases x with
  | error e => simp [bind, Except.bind]
  | ok a => simp [bind, Except.bind]

theorem ok_inj {α : Type} {a b : α} : (.ok a : Res α) = .ok b ↔ a = b := by
  constructor
  · intro h; injection h
  · rintro rfl; rfl

theorem mapM_ok {α β : Type} {f : α → Res β} : ∀ {l : List α} {r : List β}, l.mapM f = .ok r →
    List.Forall₂ (fun a b => f a = .ok b) l r
  | [], r, h => by
    rw [List.mapM_nil] at h
    injection h with h; subst h; exact .nil
  | a :: l, r, h => by
    rw [List.mapM_cons, bind_ok] at h
    obtain ⟨b, h1, h2⟩ := h
    rw [bind_ok] at h2
    obtain ⟨bs, h2, h3⟩ := h2
    injection h3 with h3; subst h3
    exact .cons h1 (mapM_ok h2)

/-! ### equality with identities -/

theorem beq_id1_list : ∀ (l : List (Circ A)) (n : ℕ), beqList l (List.replicate n .id1) = true → l = List.replicate n .id1
  | [], 0, _ => rfl
  | [], n + 1, h => by simp [List.replicate_succ, beqList] at h
  | c :: l, 0, h => by simp [beqList] at h
  | c :: l, n + 1, h => by
    rw [List.replicate_succ] at h ⊢
    simp only [beqList, Bool.and_eq_true] at h
    rw [beq_id1_list l n h.2]
    congr 1
    cases c <;> simp_all [beq]

theorem beq_cid {c : Circ A} {n : ℕ} (h : beq c (cid n) = true) : c = cid n := by
  match n with
  | 0 => cases c <;> simp_all [beq, cid]
  | 1 => cases c <;> simp_all [beq, cid]
  | n + 2 =>
    cases c with
    | concat l =>
      simp only [cid, beq] at h ⊢
      rw [beq_id1_list l _ h]
    | _ => simp [beq, cid] at h

theorem beq_sym {c : Circ A} {s n : ℕ} (h : beq c (.sym s n) = true) : c = .sym s n := by
  cases c <;> simp_all [beq]

theorem sym_beq {c : Circ A} {s n : ℕ} (h : beq (.sym s n) c = true) : c = .sym s n := by
  cases c <;> simp_all [beq]

namespace CircAlg

variable {M : CircAlg A}

theorem isCid_val {c : Circ A} {t : M.T} (h : isCid c = true) (hv : M.V c t) : t = M.one (M.dim t) := by
  have e := beq_cid h
  have hc := hv.cdim
  rw [e, hc] at hv
  exact V_unique hv (V_cid _)

theorem beq_cid_val {c : Circ A} {t : M.T} {n : ℕ} (h : beq c (cid n) = true) (hv : M.V c t) : t = M.one n := by
  rw [beq_cid h] at hv
  exact V_unique hv (V_cid n)

/-- the entry points preserve values -/
structure Sound (M : CircAlg A) (R : Ops A) : Prop where
  series : ∀ {n : ℕ} {l : List (Circ A)} {m : M.Mn n} {c : Circ A}, l ≠ [] → Engine.Prod (M.Vn n) l m → R.series l = .ok c → M.V c m.1
  concat : ∀ {l : List (Circ A)} {m : M.Mc} {c : Circ A}, Engine.Prod M.Vc l m → R.concat l = .ok c → M.V c m
  feedback : ∀ {c r : Circ A} {t u : M.T} {o i : ℕ}, M.V c t → M.fb t o i = some u → R.feedback c o i = .ok r → M.V r u
  fb_dim : ∀ {c r : Circ A} {o i : ℕ}, R.feedback c o i = .ok r → 2 ≤ c.cdim
  inverse : ∀ {c r : Circ A} {t : M.T}, M.V c t → 0 < M.dim t → R.inverse c = .ok r → M.V r (M.inv t)

/-! ### binary use of the entry points -/

theorem mc_mul (a b : M.Mc) : a * b = M.concat a b := rfl
theorem mc_one : (1 : M.Mc) = M.one 0 := rfl

theorem prod_dim (ts : List M.Mc) : M.dim ts.prod = (ts.map M.dim).sum := by
  induction ts with
  | nil => rw [List.prod_nil, mc_one, M.dim_one]; rfl
  | cons t ts ih => rw [List.prod_cons, mc_mul, M.dim_concat, ih, List.map_cons, List.sum_cons]

theorem prod2 {a b : Circ A} {s t : M.T} (ha : M.V a s) (hb : M.V b t) : Engine.Prod M.Vc [a, b] (M.concat s t) :=
  ⟨[s, t], .cons ha (.cons hb .nil), by rw [List.prod_cons, List.prod_cons, List.prod_nil, mul_one]; rfl⟩

theorem Sound.concat2 {R : Ops A} (hs : Sound M R) {a b c : Circ A} {s t : M.T} (ha : M.V a s) (hb : M.V b t)
    (h : R.concat [a, b] = .ok c) : M.V c (M.concat s t) := hs.concat (prod2 ha hb) h

theorem Sound.series2 {R : Ops A} (hs : Sound M R) {a b c : Circ A} {s t : M.T} (ha : M.V a s) (hb : M.V b t)
    (hd : M.dim s = M.dim t) (h : R.series [a, b] = .ok c) : M.V c (M.series s t) := by
  have := hs.series (n := M.dim s) (m := (⟨s, rfl⟩ : M.Mn (M.dim s)) * ⟨t, hd.symm⟩) (by simp)
    ⟨[⟨s, rfl⟩, ⟨t, hd.symm⟩], .cons ha (.cons hb .nil), by simp⟩ h
  exact this

theorem Sound.series3 {R : Ops A} (hs : Sound M R) {a b c d : Circ A} {s t u : M.T} (ha : M.V a s) (hb : M.V b t) (hc : M.V c u)
    (hd : M.dim s = M.dim t) (hd' : M.dim s = M.dim u) (h : R.series [a, b, c] = .ok d) : M.V d (M.series s (M.series t u)) := by
  have := hs.series (n := M.dim s) (m := (⟨s, rfl⟩ : M.Mn (M.dim s)) * (⟨t, hd.symm⟩ * ⟨u, hd'.symm⟩)) (by simp)
    ⟨[⟨s, rfl⟩, ⟨t, hd.symm⟩, ⟨u, hd'.symm⟩], .cons ha (.cons hb (.cons hc .nil)), by simp⟩ h
  exact this

/-! ### blocks of permutations -/

theorem fromBlocksLoop_eq (bs : List (List ℕ)) : ∀ off acc, off = acc.length →
    fromBlocksLoop off acc bs = acc ++ (fromBlocks bs).map (· + acc.length) := by
  induction bs with
  | nil => intro off acc _; simp [fromBlocksLoop, fromBlocks]
  | cons b bs ih =>
    intro off acc h
    have h1 := ih (off + b.length) (acc ++ b.map (· + off)) (by simp [h])
    have h2 := ih (0 + b.length) ([] ++ b.map (· + 0)) (by simp)
    simp only [fromBlocks, fromBlocksLoop] at h1 h2 ⊢
    rw [h1, h2, h]
    simp [Nat.add_comm, Nat.add_left_comm]

theorem fromBlocks_cons (b : List ℕ) (bs : List (List ℕ)) :
    fromBlocks (b :: bs) = b ++ (fromBlocks bs).map (· + b.length) := by
  have := fromBlocksLoop_eq bs (0 + b.length) ([] ++ b.map (· + 0)) (by simp)
  simp only [fromBlocks, fromBlocksLoop] at this ⊢
  rw [this]; simp

theorem fromBlocks_append (bs cs : List (List ℕ)) :
    fromBlocks (bs ++ cs) = fromBlocks bs ++ (fromBlocks cs).map (· + (fromBlocks bs).length) := by
  induction bs with
  | nil => simp [fromBlocks, fromBlocksLoop]
  | cons b bs ih =>
    rw [List.cons_append, fromBlocks_cons, fromBlocks_cons, ih]
    simp [Nat.add_comm, Nat.add_left_comm]

theorem perm_fromBlocks {bs : List (List ℕ)} (h : ∀ b ∈ bs, Valid b) :
    (M.perm (fromBlocks bs) : M.Mc) = (bs.map M.perm : List M.Mc).prod := by
  induction bs with
  | nil =>
    rw [List.map_nil, List.prod_nil, mc_one, ← M.perm_range]; rfl
  | cons b bs ih =>
    rw [fromBlocks_cons, M.perm_concat _ _ (h b (by simp)) (fromBlocks_valid (fun x hx => h x (by simp [hx]))),
      List.map_cons, List.prod_cons, ← ih (fun x hx => h x (by simp [hx]))]
    rfl

theorem createPerms_val {ps : List (List ℕ)} {cs : List (Circ A)} (h : createPerms ps = .ok cs) :
    List.Forall₂ (fun p c => Valid p ∧ M.V c (M.perm p)) ps cs := by
  have h := mapM_ok h
  refine h.imp ?_
  intro p c hc
  rw [bind_ok] at hc
  obtain ⟨d, h1, h2⟩ := hc
  injection h2 with h2; subst h2
  have h3 := create_tuple h1
  refine ⟨h3.1, ?_⟩
  have := V_ofPC (A := A) (M := M) (c := d) ⟨p, h1⟩
  rw [h3.2.1] at this
  exact this

/-- lists of circuits with values -/
theorem createPerms_forall {ps : List (List ℕ)} {cs : List (Circ A)} (h : createPerms ps = .ok cs) :
    (∀ p ∈ ps, Valid p) ∧ List.Forall₂ M.V cs (ps.map M.perm) := by
  have h := createPerms_val (M := M) h
  clear * - h
  induction h with
  | nil => exact ⟨by simp, .nil⟩
  | cons h1 _ ih => exact ⟨by simpa using ⟨h1.1, ih.1⟩, .cons h1.2 ih.2⟩

/-! ### block structures -/

theorem toBlocks_spec {p : List ℕ} {bs : List (List ℕ)} (h : toBlocks p = .ok bs) :
    Valid p ∧ (∀ b ∈ bs, Valid b ∧ 0 < b.length) ∧ fromBlocks bs = p := by
  by_cases hp : p = [] ∨ ¬ IsBijection p
  · rw [C05_blocks_error hp] at h; cases h
  · rw [not_or, not_not] at hp
    obtain ⟨bs', h1, h2, h3⟩ := C05_blocks hp.2 hp.1
    rw [h1] at h; injection h with h; subst h
    exact ⟨(valid_iff p).mpr hp.2, fun b hb => ⟨(valid_iff b).mpr (h2 b hb).1, List.length_pos_iff.mpr (h2 b hb).2.1⟩, h3⟩

mutual
theorem blockStructure_sum : ∀ (c : Circ A) {st : List ℕ}, blockStructure c = .ok st → st.sum = c.cdim
  | .perm p, st, h => by
    simp only [blockStructure] at h
    rw [bind_ok] at h
    obtain ⟨bs, h1, h2⟩ := h
    injection h2 with h2; subst h2
    have := (toBlocks_spec h1).2.2
    rw [Circ.cdim, ← this, fromBlocks_length]
  | .concat ops, st, h => by
    simp only [blockStructure] at h
    rw [blockStructureList_sum ops h, Circ.cdim]
  | .sym a n, st, h => by simp only [blockStructure] at h; injection h with h; subst h; simp
  | .slh s, st, h => by simp only [blockStructure] at h; injection h with h; subst h; simp
  | .id1, st, h => by simp only [blockStructure] at h; injection h with h; subst h; simp
  | .zero, st, h => by simp only [blockStructure] at h; injection h with h; subst h; simp
  | .series l, st, h => by simp only [blockStructure] at h; injection h with h; subst h; simp
  | .fb c o i, st, h => by simp only [blockStructure] at h; injection h with h; subst h; simp
  | .inv c, st, h => by simp only [blockStructure] at h; injection h with h; subst h; simp
theorem blockStructureList_sum : ∀ (l : List (Circ A)) {st : List ℕ}, blockStructureList l = .ok st → st.sum = sumCdim l
  | [], st, h => by simp only [blockStructureList] at h; injection h with h; subst h; rfl
  | c :: l, st, h => by
    simp only [blockStructureList] at h
    rw [bind_ok] at h
    obtain ⟨a, h1, h2⟩ := h
    rw [bind_ok] at h2
    obtain ⟨b, h2, h3⟩ := h2
    injection h3 with h3; subst h3
    rw [List.sum_append, blockStructure_sum c h1, blockStructureList_sum l h2]; rfl
end

mutual
theorem blockStructure_pos : ∀ (c : Circ A) {st : List ℕ} {t : M.T}, blockStructure c = .ok st → M.den c = some t → 0 < M.dim t →
    ∀ x ∈ st, 0 < x
  | .perm p, st, t, h, _, _ => by
    simp only [blockStructure] at h
    rw [bind_ok] at h
    obtain ⟨bs, h1, h2⟩ := h
    injection h2 with h2; subst h2
    intro x hx
    obtain ⟨b, hb, rfl⟩ := List.mem_map.mp hx
    exact ((toBlocks_spec h1).2.1 b hb).2
  | .concat ops, st, t, h, hv, hd => by
    simp only [blockStructure] at h
    obtain ⟨_, ms, h1, _⟩ := V_concat.mp (show M.V (.concat ops) t from hv)
    have h2 := forall₂_p.mp h1
    exact blockStructureList_pos ops h (denList_iff.mpr h2.1) h2.2
  | .sym a n, st, t, h, hv, hd => by
    simp only [blockStructure] at h; injection h with h; subst h; rw [V.cdim hv]; simpa using hd
  | .slh s, st, t, h, hv, hd => by
    simp only [blockStructure] at h; injection h with h; subst h; rw [V.cdim hv]; simpa using hd
  | .id1, st, t, h, hv, hd => by
    simp only [blockStructure] at h; injection h with h; subst h; rw [V.cdim hv]; simpa using hd
  | .zero, st, t, h, hv, hd => by
    simp only [blockStructure] at h; injection h with h; subst h; rw [V.cdim hv]; simpa using hd
  | .series l, st, t, h, hv, hd => by
    simp only [blockStructure] at h; injection h with h; subst h; rw [V.cdim hv]; simpa using hd
  | .fb c o i, st, t, h, hv, hd => by
    simp only [blockStructure] at h; injection h with h; subst h; rw [V.cdim hv]; simpa using hd
  | .inv c, st, t, h, hv, hd => by
    simp only [blockStructure] at h; injection h with h; subst h; rw [V.cdim hv]; simpa using hd
theorem blockStructureList_pos : ∀ (l : List (Circ A)) {st : List ℕ} {ts : List M.T}, blockStructureList l = .ok st →
    M.denList l = some ts → (∀ t ∈ ts, 0 < M.dim t) → ∀ x ∈ st, 0 < x
  | [], st, ts, h, _, _ => by simp only [blockStructureList] at h; injection h with h; subst h; simp
  | c :: l, st, ts, h, hv, hd => by
    simp only [blockStructureList] at h
    rw [bind_ok] at h
    obtain ⟨a, h1, h2⟩ := h
    rw [bind_ok] at h2
    obtain ⟨b, h2, h3⟩ := h2
    injection h3 with h3; subst h3
    simp only [denList] at hv
    rw [Option.bind_eq_some_iff] at hv
    obtain ⟨t, hv1, hv2⟩ := hv
    rw [Option.map_eq_some_iff] at hv2
    obtain ⟨us, hv2, rfl⟩ := hv2
    intro x hx
    rcases List.mem_append.mp hx with hx | hx
    · exact blockStructure_pos c h1 hv1 (hd t (by simp)) x hx
    · exact blockStructureList_pos l h2 hv2 (fun u hu => hd u (by simp [hu])) x hx
end

/-! ### blocks -/

theorem takeBlocks_spec (bl : ℕ) : ∀ (blocks : List (Circ A)) (cur : ℕ) {taken rest : List (Circ A)} {len : ℕ},
    takeBlocks bl cur blocks = .ok (taken, len, rest) → blocks = taken ++ rest ∧ len = cur + sumCdim taken := by
  intro blocks
  induction blocks with
  | nil =>
    intro cur taken rest len h
    unfold takeBlocks at h
    split at h
    · cases h
    · injection h with h; cases h; exact ⟨rfl, rfl⟩
  | cons b blocks ih =>
    intro cur taken rest len h
    unfold takeBlocks at h
    split at h
    · simp only at h
      rw [bind_ok] at h
      obtain ⟨⟨tk, ln, rs⟩, h1, h2⟩ := h
      injection h2 with h2; cases h2
      obtain ⟨e1, e2⟩ := ih _ h1
      exact ⟨by rw [e1]; rfl, by rw [e2]; simp [sumCdim, Nat.add_assoc]⟩
    · injection h with h; cases h; exact ⟨rfl, rfl⟩

theorem prod_cdim {l : List (Circ A)} {m : M.Mc} (h : Engine.Prod M.Vc l m) : sumCdim l = M.dim m := by
  obtain ⟨ms, h1, rfl⟩ := h
  rw [prod_dim]
  exact (cdims_eq l ms (denList_iff.mpr h1)).2

theorem regroup_sound {R : Ops A} (hs : Sound M R) : ∀ (st : List ℕ) (blocks : List (Circ A)) {cs : List (Circ A)} {m : M.Mc},
    Engine.Prod M.Vc blocks m → regroup R st blocks = .ok cs →
    ∃ (ts : List M.Mc) (rest : M.Mc), List.Forall₂ M.V cs ts ∧ ts.map M.dim = st ∧ m = ts.prod * rest := by
  intro st
  induction st with
  | nil =>
    intro blocks cs m hm h
    simp only [regroup] at h
    injection h with h; subst h
    exact ⟨[], m, .nil, rfl, by simp⟩
  | cons bl st ih =>
    intro blocks cs m hm h
    simp only [regroup] at h
    rw [bind_ok] at h
    obtain ⟨⟨taken, len, rest⟩, h1, h2⟩ := h
    simp only at h2
    split at h2
    · cases h2
    · rename_i hlen
      rw [not_not] at hlen
      rw [bind_ok] at h2
      obtain ⟨c, h2, h3⟩ := h2
      rw [bind_ok] at h3
      obtain ⟨cs', h3, h4⟩ := h3
      injection h4 with h4; subst h4
      obtain ⟨e1, e2⟩ := takeBlocks_spec bl blocks 0 h1
      subst e1
      obtain ⟨a, b, ha, hb, rfl⟩ := Engine.prod_append_iff.mp hm
      obtain ⟨ts, r, i1, i2, i3⟩ := ih _ hb h3
      refine ⟨a :: ts, r, .cons (hs.concat ha h2) i1, ?_, ?_⟩
      · rw [List.map_cons, i2, ← prod_cdim ha, ← hlen, e2]; simp
      · rw [List.prod_cons, i3, mul_assoc]

theorem rest_one {ts : List M.Mc} {rest m : M.Mc} (h : m = ts.prod * rest) (hd : (ts.map M.dim).sum = M.dim m) : m = ts.prod := by
  have h1 : M.dim rest = 0 := by
    rw [h, mc_mul, M.dim_concat, prod_dim] at hd; omega
  rw [h, show rest = (1 : M.Mc) from M.zero rest h1, mul_one]

mutual
theorem ownBlocks_sound {R : Ops A} (hs : Sound M R) : ∀ (c : Circ A) {bs : List (Circ A)} {t : M.T}, M.den c = some t →
    ownBlocks R c = .ok bs → Engine.Prod M.Vc bs t
  | .perm p, bs, t, hv, h => by
    simp only [ownBlocks] at h
    rw [bind_ok] at h
    obtain ⟨ps, h1, h2⟩ := h
    obtain ⟨h3, h4, h5⟩ := toBlocks_spec h1
    obtain ⟨h6, h7⟩ := createPerms_forall (M := M) h2
    refine ⟨_, h7, ?_⟩
    rw [(V_perm.mp hv).2, ← perm_fromBlocks h6, h5]
  | .concat ops, bs, t, hv, h => by
    simp only [ownBlocks] at h
    rw [bind_ok] at h
    obtain ⟨bs', h1, h2⟩ := h
    rw [bind_ok] at h2
    obtain ⟨st, h2, h3⟩ := h2
    obtain ⟨_, ms, h4, h5⟩ := V_concat.mp (show M.V (.concat ops) t from hv)
    have h6 := ownBlocksList_sound hs ops (denList_iff.mpr (forall₂_p.mp h4).1) h1
    rw [h5] at h6
    obtain ⟨ts, rest, i1, i2, i3⟩ := regroup_sound hs st bs' h6 h3
    refine ⟨ts, i1, ?_⟩
    refine (rest_one i3 ?_).symm
    rw [i2, blockStructureList_sum ops h2]
    exact V.cdim hv
  | .sym a n, bs, t, hv, h => by
    simp only [ownBlocks] at h; injection h with h; subst h; exact Engine.prod_single_iff.mpr hv
  | .slh s, bs, t, hv, h => by
    simp only [ownBlocks] at h; injection h with h; subst h; exact Engine.prod_single_iff.mpr hv
  | .id1, bs, t, hv, h => by
    simp only [ownBlocks] at h; injection h with h; subst h; exact Engine.prod_single_iff.mpr hv
  | .zero, bs, t, hv, h => by
    simp only [ownBlocks] at h; injection h with h; subst h; exact Engine.prod_single_iff.mpr hv
  | .series l, bs, t, hv, h => by
    simp only [ownBlocks] at h; injection h with h; subst h; exact Engine.prod_single_iff.mpr hv
  | .fb c o i, bs, t, hv, h => by
    simp only [ownBlocks] at h; injection h with h; subst h; exact Engine.prod_single_iff.mpr hv
  | .inv c, bs, t, hv, h => by
    simp only [ownBlocks] at h; injection h with h; subst h; exact Engine.prod_single_iff.mpr hv
theorem ownBlocksList_sound {R : Ops A} (hs : Sound M R) : ∀ (l : List (Circ A)) {bs : List (Circ A)} {ts : List M.Mc},
    M.denList l = some ts → ownBlocksList R l = .ok bs → Engine.Prod M.Vc bs ts.prod
  | [], bs, ts, hv, h => by
    simp only [ownBlocksList] at h; injection h with h; subst h
    simp only [denList] at hv; injection hv with hv; subst hv
    exact Engine.Prod.nil
  | c :: l, bs, ts, hv, h => by
    simp only [ownBlocksList] at h
    rw [bind_ok] at h
    obtain ⟨a, h1, h2⟩ := h
    rw [bind_ok] at h2
    obtain ⟨b, h2, h3⟩ := h2
    injection h3 with h3; subst h3
    simp only [denList] at hv
    rw [Option.bind_eq_some_iff] at hv
    obtain ⟨t, hv1, hv2⟩ := hv
    rw [Option.map_eq_some_iff] at hv2
    obtain ⟨us, hv2, rfl⟩ := hv2
    rw [List.prod_cons]
    exact (ownBlocks_sound hs c hv1 h1).append (ownBlocksList_sound hs l hv2 h2)
end

/-- for a concatenation the own blocks have the sizes of the block structure -/
theorem ownBlocks_concat {R : Ops A} (hs : Sound M R) {ops bs : List (Circ A)} {st : List ℕ} {t : M.T} (hv : M.V (.concat ops) t)
    (h : ownBlocks R (.concat ops) = .ok bs) (h' : blockStructure (.concat ops) = .ok st) :
    ∃ ts : List M.Mc, List.Forall₂ M.V bs ts ∧ ts.map M.dim = st ∧ t = ts.prod := by
  simp only [ownBlocks] at h
  rw [bind_ok] at h
  obtain ⟨bs', h1, h2⟩ := h
  rw [bind_ok] at h2
  obtain ⟨st', h2, h3⟩ := h2
  simp only [blockStructure] at h'
  rw [h2] at h'; injection h' with h'; subst h'
  obtain ⟨_, ms, h4, h5⟩ := V_concat.mp (show M.V (.concat ops) t from hv)
  have h6 := ownBlocksList_sound hs ops (denList_iff.mpr (forall₂_p.mp h4).1) h1
  rw [h5] at h6
  obtain ⟨ts, rest, i1, i2, i3⟩ := regroup_sound hs st' bs' h6 h3
  refine ⟨ts, i1, i2, ?_⟩
  refine rest_one i3 ?_
  rw [i2, blockStructureList_sum ops h2]
  exact V.cdim hv

theorem takePerms_spec (l : ℕ) : ∀ (blocks : List (List ℕ)) (cur : List ℕ) {p : List ℕ} {rest : List (List ℕ)},
    takePerms l cur blocks = .ok (p, rest) → Valid cur → (∀ b ∈ blocks, Valid b) →
    ∃ taken, blocks = taken ++ rest ∧ p = cur ++ (fromBlocks taken).map (· + cur.length) ∧ Valid p := by
  intro blocks
  induction blocks with
  | nil =>
    intro cur p rest h hc _
    unfold takePerms at h
    split at h
    · cases h
    · injection h with h; cases h; exact ⟨[], rfl, by simp [fromBlocks, fromBlocksLoop], hc⟩
  | cons b blocks ih =>
    intro cur p rest h hc hb
    unfold takePerms at h
    split at h
    · simp only at h
      have hv : Valid (cur ++ b.map (· + cur.length)) := by
        have := fromBlocks_valid (ws := [cur, b]) (by intro w hw; simp at hw; rcases hw with rfl | rfl; exact hc; exact hb _ (by simp))
        rw [fromBlocks_cons, fromBlocks_cons] at this
        simpa [fromBlocks, fromBlocksLoop] using this
      obtain ⟨taken, e1, e2, e3⟩ := ih _ h hv (fun x hx => hb x (by simp [hx]))
      refine ⟨b :: taken, by rw [e1]; rfl, ?_, e3⟩
      rw [e2, fromBlocks_cons]
      simp [Nat.add_comm, Nat.add_left_comm]
    · injection h with h; cases h; exact ⟨[], rfl, by simp [fromBlocks, fromBlocksLoop], hc⟩

theorem regroupPerms_spec : ∀ (st : List ℕ) (blocks ps : List (List ℕ)), (∀ b ∈ blocks, Valid b) → regroupPerms st blocks = .ok ps →
    ps.map List.length = st ∧ (∀ p ∈ ps, Valid p) ∧ ∃ rest, (∀ b ∈ rest, Valid b) ∧
      fromBlocks blocks = fromBlocks ps ++ (fromBlocks rest).map (· + (fromBlocks ps).length) := by
  intro st
  induction st with
  | nil =>
    intro blocks ps hb h
    simp only [regroupPerms] at h
    injection h with h; subst h
    exact ⟨rfl, by simp, blocks, hb, by simp [fromBlocks, fromBlocksLoop]⟩
  | cons l st ih =>
    intro blocks ps hb h
    simp only [regroupPerms] at h
    rw [bind_ok] at h
    obtain ⟨⟨cur, rest⟩, h1, h2⟩ := h
    simp only at h2
    split at h2
    · cases h2
    · rename_i hlen
      rw [not_not] at hlen
      rw [bind_ok] at h2
      obtain ⟨ps', h3, h4⟩ := h2
      injection h4 with h4; subst h4
      obtain ⟨taken, e1, e2, e3⟩ := takePerms_spec l blocks [] h1 (valid_range 0) hb
      obtain ⟨i1, i2, rest', i3, i4⟩ := ih rest ps' (fun b hb' => hb b (by rw [e1]; simp [hb'])) h3
      refine ⟨by simp [hlen, i1], by simpa using ⟨e3, i2⟩, rest', i3, ?_⟩
      rw [e1, fromBlocks_append, i4, fromBlocks_cons, show fromBlocks taken = cur by simpa using e2.symm]
      simp [Nat.add_comm, Nat.add_left_comm]

theorem getBlocks_sound {R : Ops A} (hs : Sound M R) {c : Circ A} {st : List ℕ} {cs : List (Circ A)} {t : M.T} (hv : M.V c t)
    (hsum : st.sum = M.dim t) (h : getBlocks R c st = .ok cs) :
    ∃ ts : List M.Mc, List.Forall₂ M.V cs ts ∧ ts.map M.dim = st ∧ t = ts.prod := by
  cases c with
  | perm p =>
    simp only [getBlocks] at h
    rw [bind_ok] at h
    obtain ⟨bs, h1, h2⟩ := h
    obtain ⟨h3, h4, h5⟩ := toBlocks_spec h1
    split at h2
    · rename_i hst
      obtain ⟨h6, h7⟩ := createPerms_forall (M := M) h2
      refine ⟨_, h7, ?_, ?_⟩
      · rw [hst, List.map_map]; apply List.map_congr_left; intro b _; exact M.dim_perm b
      · rw [(V_perm.mp hv).2, ← perm_fromBlocks h6, h5]
    · split at h2
      · cases h2
      · split at h2
        · cases h2
        · rename_i hst
          rw [not_not] at hst
          rw [bind_ok] at h2
          obtain ⟨ps, h2, h6⟩ := h2
          obtain ⟨h7, h8⟩ := createPerms_forall (M := M) h6
          obtain ⟨i1, i2, rest, i3, i4⟩ := regroupPerms_spec st bs ps (fun b hb => (h4 b hb).1) h2
          have hr : fromBlocks rest = [] := by
            have e := congrArg List.length i4
            rw [h5, ← hst] at e
            rw [List.length_append, fromBlocks_length ps, i1] at e
            apply List.eq_nil_of_length_eq_zero
            rw [List.length_map] at e; omega
          refine ⟨_, h8, ?_, ?_⟩
          · rw [← i1, List.map_map]; apply List.map_congr_left; intro b _; exact M.dim_perm b
          · rw [(V_perm.mp hv).2, ← perm_fromBlocks i2, ← h5, i4, hr]; simp
  | concat ops =>
    simp only [getBlocks] at h
    rw [bind_ok] at h
    obtain ⟨bs', h1, h2⟩ := h
    obtain ⟨_, ms, h4, h5⟩ := V_concat.mp (show M.V (.concat ops) t from hv)
    have h6 := ownBlocksList_sound hs ops (denList_iff.mpr (forall₂_p.mp h4).1) h1
    rw [h5] at h6
    obtain ⟨ts, rest, i1, i2, i3⟩ := regroup_sound hs st bs' h6 h2
    exact ⟨ts, i1, i2, rest_one i3 (by rw [i2, hsum])⟩
  | _ =>
    simp only [getBlocks] at h
    split at h
    · rename_i hst
      injection h with h; subst h
      refine ⟨[t], .cons hv .nil, ?_, by simp⟩
      rw [hst, V.cdim hv]; rfl
    · cases h

end CircAlg

end QNET.Circuit
