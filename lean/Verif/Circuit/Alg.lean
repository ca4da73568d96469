import Verif.Circuit.Model
import Verif.Engine.Lemmas
import Verif.CPerm.Lemmas
import Verif.CPerm.Spec
import Verif.SLH.Aff

/-!
# Abstract circuit algebras

The laws that make the rewriting of circuits sound, for an arbitrary interpretation `T` of circuits. `Verif/Circuit/Inst.lean`
shows that the SLH triples satisfy them.
-/

namespace QNET.Circuit

open QNET.Perm QNET.CPerm

variable {A : Type} [Ring A] [StarRing A] [Algebra ℂ A]

/-- An interpretation of circuits. -/
structure CircAlg (A : Type) [Ring A] [StarRing A] [Algebra ℂ A] where
  T : Type
  dim : T → ℕ
  one : ℕ → T
  perm : List ℕ → T
  series : T → T → T
  concat : T → T → T
  inv : T → T
  fb : T → ℕ → ℕ → Option T
  Thread : ℕ → ℕ → T → T → Prop
  symv : ℕ → ℕ → T
  leaf : SLH A → Option T
  dim_one : ∀ n, dim (one n) = n
  dim_perm : ∀ p, dim (perm p) = p.length
  dim_series : ∀ a b, dim (series a b) = dim a
  dim_concat : ∀ a b, dim (concat a b) = dim a + dim b
  dim_inv : ∀ a, dim (inv a) = dim a
  dim_sym : ∀ s n, dim (symv s n) = n
  series_assoc : ∀ a b c, dim a = dim b → dim b = dim c → series (series a b) c = series a (series b c)
  one_series : ∀ a, series (one (dim a)) a = a
  series_one : ∀ a, series a (one (dim a)) = a
  inv_series : ∀ a, series (inv a) a = one (dim a)
  series_inv : ∀ a, series a (inv a) = one (dim a)
  concat_assoc : ∀ a b c, concat (concat a b) c = concat a (concat b c)
  zero_concat : ∀ a, concat (one 0) a = a
  concat_zero : ∀ a, concat a (one 0) = a
  one_concat_one : ∀ m n, concat (one m) (one n) = one (m + n)
  interchange : ∀ a1 a2 b1 b2, dim a1 = dim b1 → dim a2 = dim b2 →
    series (concat a1 a2) (concat b1 b2) = concat (series a1 b1) (series a2 b2)
  zero : ∀ a, dim a = 0 → a = one 0
  perm_range : ∀ n, perm (List.range n) = one n
  perm_comp : ∀ p q, Valid p → Valid q → p.length = q.length → perm (comp p q) = series (perm p) (perm q)
  perm_concat : ∀ p q, Valid p → Valid q → perm (p ++ q.map (· + p.length)) = concat (perm p) (perm q)
  block_perm : ∀ (bp : List ℕ) (ts : List T), Valid bp → bp.length = ts.length →
    series (perm (fbp bp (ts.map dim))) (ts.foldr concat (one 0)) =
      series (((Perm.inv bp).map (fun k => ts.getD k (one 0))).foldr concat (one 0)) (perm (fbp bp (ts.map dim)))
  fb_dim : ∀ a o i b, fb a o i = some b → dim b = dim a - 1 ∧ o < dim a ∧ i < dim a ∧ 2 ≤ dim a
  thread_perm : ∀ p red o i, Valid p → Valid red → red.length = p.length - 1 → p[i]? = some o →
    (∀ l z : ℕ, red[l]? = some z → p[Aff.up i l]? = some (Aff.up o z)) → Thread o i (perm p) (perm red)
  thread_one : ∀ n o, o < n → Thread o o (one n) (one (n - 1))
  thread_concat_left : ∀ o i a b c, Thread o i a b → Thread (dim c + o) (dim c + i) (concat c a) (concat c b)
  thread_concat_right : ∀ o i a b c, Thread o i a b → Thread o i (concat a c) (concat b c)
  fb_left : ∀ o i j a b c, Thread o i a b → dim a = dim c → j < dim c → fb (series a c) o j = (fb c i j).map (series b)
  fb_right : ∀ o i j a b c, Thread o i a b → dim a = dim c → j < dim c → fb (series c a) j i = (fb c j o).map (fun x => series x b)
  fb_concat_right : ∀ a b o i, 2 ≤ dim b → o < dim b → i < dim b →
    fb (concat a b) (dim a + o) (dim a + i) = (fb b o i).map (concat a)
  fb_concat_left : ∀ a b o i, 2 ≤ dim a → o < dim a → i < dim a →
    fb (concat a b) o i = (fb a o i).map (fun x => concat x b)
  fb_perm : ∀ p r o i t, Valid p → Valid r → r.length = p.length - 1 → o < p.length → i < p.length → ClosesLoop p o i r →
    fb (perm p) o i = some t → t = perm r
  fb_inv : ∀ a o i b, fb a o i = some b → fb (inv a) i o = some (inv b)
  leaf_dim : ∀ s t, leaf s = some t → dim t = s.n ∧ 0 < s.n
  leaf_series : ∀ s t a b, leaf s = some a → leaf t = some b → s.n = t.n → leaf (SLH.series s t) = some (series a b)
  leaf_concat : ∀ s t a b, leaf s = some a → leaf t = some b → leaf (SLH.concat s t) = some (concat a b)
  leaf_inv : ∀ s a, leaf s = some a → leaf (SLH.inverse s) = some (inv a)
  leaf_fb : ∀ s s' a b o i, leaf s = some a → fb a o i = some b → SLH.feedback s o i = .ok s' → leaf s' = some b

namespace CircAlg

variable (M : CircAlg A)

/-- `reduce(series)` with the check that the channel numbers agree and are positive; undefined for no operands -/
def foldSeries : List M.T → Option M.T
  | [] => none
  | t :: ts => if 0 < M.dim t ∧ ∀ u ∈ ts, M.dim u = M.dim t then some (ts.foldl M.series t) else none

/-- `reduce(concat)` with the check that the channel numbers are positive; undefined for no operands -/
def foldConcat : List M.T → Option M.T
  | [] => none
  | t :: ts => if ∀ u ∈ t :: ts, 0 < M.dim u then some (ts.foldl M.concat t) else none

mutual
/-- the value of a circuit expression, if defined. Objects that `create` never returns (trivial `CPermutation`s, operations with
zero-channel operands, inverses of anything but symbols) have no value. -/
def den : Circ A → Option M.T
  | .sym s n => if 0 < n then some (M.symv s n) else none
  | .slh s => M.leaf s
  | .perm p => if check p = true ∧ p ≠ List.range p.length then some (M.perm p) else none
  | .id1 => some (M.one 1)
  | .zero => some (M.one 0)
  | .series ops => (denList ops).bind M.foldSeries
  | .concat ops => (denList ops).bind M.foldConcat
  | .fb c o i => (den c).bind (fun t => M.fb t o i)
  | .inv (.sym s n) => if 0 < n then some (M.inv (M.symv s n)) else none
  | .inv _ => none
/-- the values of operands -/
def denList : List (Circ A) → Option (List M.T)
  | [] => some []
  | c :: cs => (den c).bind (fun t => (denList cs).map (fun ts => t :: ts))
end

/-- circuits with `n` channels -/
abbrev Mn (n : ℕ) : Type := {t : M.T // M.dim t = n}

instance (n : ℕ) : Monoid (M.Mn n) where
  mul a b := ⟨M.series a.1 b.1, by rw [M.dim_series, a.2]⟩
  one := ⟨M.one n, M.dim_one n⟩
  mul_assoc a b c := Subtype.ext (M.series_assoc _ _ _ (a.2.trans b.2.symm) (b.2.trans c.2.symm))
  one_mul a := Subtype.ext (by have := M.one_series a.1; rw [a.2] at this; exact this)
  mul_one a := Subtype.ext (by have := M.series_one a.1; rw [a.2] at this; exact this)

theorem mul_val {n : ℕ} (a b : M.Mn n) : (a * b).1 = M.series a.1 b.1 := rfl
theorem one_val (n : ℕ) : (1 : M.Mn n).1 = M.one n := rfl

/-- circuits under concatenation -/
abbrev Mc : Type := M.T

instance : Monoid M.Mc where
  mul a b := M.concat a b
  one := M.one 0
  mul_assoc := M.concat_assoc
  one_mul := M.zero_concat
  mul_one := M.concat_zero

/-- `c` has value `t` -/
def V (c : Circ A) (t : M.T) : Prop := M.den c = some t

/-- `c` has value `t`, with `n` channels -/
def Vn (n : ℕ) (c : Circ A) (t : M.Mn n) : Prop := M.den c = some t.1

/-- `c` has value `t`, in the concatenation monoid -/
def Vc (c : Circ A) (t : M.Mc) : Prop := M.den c = some t

variable {M}

theorem denList_iff {l : List (Circ A)} {ts : List M.T} : M.denList l = some ts ↔ List.Forall₂ M.V l ts := by
  induction l generalizing ts with
  | nil =>
    simp only [denList]
    constructor
    · intro h; injection h with h; subst h; exact .nil
    · intro h; cases h; rfl
  | cons c l ih =>
    simp only [denList]
    constructor
    · intro h
      rw [Option.bind_eq_some_iff] at h
      obtain ⟨t, h1, h2⟩ := h
      rw [Option.map_eq_some_iff] at h2
      obtain ⟨us, h2, rfl⟩ := h2
      exact .cons h1 (ih.mp h2)
    · intro h
      cases h with
      | cons h1 h2 =>
        rw [show M.den c = some _ from h1, ih.mpr h2]
        rfl

/-! ### channel numbers -/

theorem foldl_series_dim (ts : List M.T) : ∀ t, M.dim (ts.foldl M.series t) = M.dim t := by
  induction ts with
  | nil => intro t; rfl
  | cons u ts ih => intro t; rw [List.foldl_cons, ih, M.dim_series]

theorem foldl_concat_dim (ts : List M.T) : ∀ t, M.dim (ts.foldl M.concat t) = M.dim t + (ts.map M.dim).sum := by
  induction ts with
  | nil => intro t; simp
  | cons u ts ih => intro t; rw [List.foldl_cons, ih, M.dim_concat]; simp [Nat.add_assoc]

mutual
theorem cdim_eq : ∀ (c : Circ A) (t : M.T), M.den c = some t → c.cdim = M.dim t
  | .sym s n, t, h => by
    simp only [den] at h
    split at h
    · injection h with h; rw [← h, M.dim_sym]; rfl
    · cases h
  | .slh s, t, h => by simp only [den] at h; rw [(M.leaf_dim s t h).1]; rfl
  | .perm p, t, h => by
    simp only [den] at h
    split at h
    · injection h with h; rw [← h, M.dim_perm]; rfl
    · cases h
  | .id1, t, h => by simp only [den] at h; injection h with h; rw [← h, M.dim_one]; rfl
  | .zero, t, h => by simp only [den] at h; injection h with h; rw [← h, M.dim_one]; rfl
  | .series ops, t, h => by
    simp only [den] at h
    rw [Option.bind_eq_some_iff] at h
    obtain ⟨ts, h1, h2⟩ := h
    have := (cdims_eq ops ts h1).1
    cases ts with
    | nil => cases h2
    | cons u us =>
      simp only [foldSeries] at h2
      split at h2
      · injection h2 with h2
        rw [← h2, foldl_series_dim]; simpa [Circ.cdim] using this
      · cases h2
  | .concat ops, t, h => by
    simp only [den] at h
    rw [Option.bind_eq_some_iff] at h
    obtain ⟨ts, h1, h2⟩ := h
    have := (cdims_eq ops ts h1).2
    cases ts with
    | nil => cases h2
    | cons u us =>
      simp only [foldConcat] at h2
      split at h2
      · injection h2 with h2
        rw [← h2, foldl_concat_dim]; simpa [Circ.cdim] using this
      · cases h2
  | .fb c o i, t, h => by
    simp only [den] at h
    rw [Option.bind_eq_some_iff] at h
    obtain ⟨u, h1, h2⟩ := h
    rw [(M.fb_dim u o i t h2).1, ← cdim_eq c u h1]; rfl
  | .inv (.sym s n), t, h => by
    simp only [den] at h
    split at h
    · injection h with h; rw [← h, M.dim_inv, M.dim_sym]; rfl
    · cases h
  | .inv (.slh _), t, h => by simp [den] at h
  | .inv (.perm _), t, h => by simp [den] at h
  | .inv .id1, t, h => by simp [den] at h
  | .inv .zero, t, h => by simp [den] at h
  | .inv (.series _), t, h => by simp [den] at h
  | .inv (.concat _), t, h => by simp [den] at h
  | .inv (.fb _ _ _), t, h => by simp [den] at h
  | .inv (.inv _), t, h => by simp [den] at h
theorem cdims_eq : ∀ (l : List (Circ A)) (ts : List M.T), M.denList l = some ts →
    headCdim l = ((ts.map M.dim).headD 0) ∧ sumCdim l = (ts.map M.dim).sum
  | [], ts, h => by simp only [denList] at h; injection h with h; subst h; exact ⟨rfl, rfl⟩
  | c :: cs, ts, h => by
    simp only [denList] at h
    rw [Option.bind_eq_some_iff] at h
    obtain ⟨t, h1, h2⟩ := h
    rw [Option.map_eq_some_iff] at h2
    obtain ⟨us, h2, rfl⟩ := h2
    have e1 := cdim_eq c t h1
    have e2 := (cdims_eq cs us h2).2
    constructor
    · simpa [headCdim] using e1
    · simp [sumCdim, e1, e2]
end

theorem V.cdim {c : Circ A} {t : M.T} (h : M.V c t) : c.cdim = M.dim t := cdim_eq c t h

/-! ### the monoids -/

theorem foldl_series_prod {n : ℕ} (ts : List (M.Mn n)) : ∀ t : M.Mn n, (ts.map Subtype.val).foldl M.series t.1 = (t * ts.prod).1 := by
  induction ts with
  | nil => intro t; simp
  | cons u ts ih =>
    intro t
    rw [List.map_cons, List.foldl_cons, ← M.mul_val, ih]
    simp [mul_assoc]

theorem foldl_concat_prod (ts : List M.Mc) : ∀ t : M.Mc, List.foldl M.concat t ts = (t * ts.prod : M.Mc) := by
  induction ts with
  | nil => intro t; simp
  | cons u ts ih =>
    intro t
    rw [List.foldl_cons, show M.concat t u = (t * u : M.Mc) from rfl, ih]
    simp [mul_assoc]

theorem foldr_concat_prod (ts : List M.Mc) : List.foldr M.concat (M.one 0) ts = (ts.prod : M.Mc) := by
  induction ts with
  | nil => rfl
  | cons u ts ih => rw [List.foldr_cons, ih]; rfl

theorem forall₂_sub {n : ℕ} {l : List (Circ A)} {ts : List (M.Mn n)} (h : List.Forall₂ (M.Vn n) l ts) :
    List.Forall₂ M.V l (ts.map Subtype.val) := by
  induction h with
  | nil => exact .nil
  | cons h1 _ ih => exact .cons h1 ih

theorem lift_list {n : ℕ} : ∀ (ts : List M.T), (∀ t ∈ ts, M.dim t = n) → ∃ us : List (M.Mn n), us.map Subtype.val = ts
  | [], _ => ⟨[], rfl⟩
  | t :: ts, h => by
    obtain ⟨us, e⟩ := lift_list ts (fun u hu => h u (List.mem_cons_of_mem _ hu))
    exact ⟨⟨t, h t (by simp)⟩ :: us, by simp [e]⟩

theorem forall₂_lift {n : ℕ} {l : List (Circ A)} : ∀ {ts : List (M.Mn n)}, List.Forall₂ M.V l (ts.map Subtype.val) →
    List.Forall₂ (M.Vn n) l ts := by
  induction l with
  | nil => intro ts h; cases ts with
    | nil => exact .nil
    | cons => cases h
  | cons c l ih => intro ts h; cases ts with
    | nil => cases h
    | cons t ts => cases h with
      | cons h1 h2 => exact .cons h1 (ih h2)

/-- value of a `SeriesProduct` -/
theorem V_series {l : List (Circ A)} {t : M.T} :
    M.V (.series l) t ↔ l ≠ [] ∧ 0 < M.dim t ∧ Engine.Prod (M.Vn (M.dim t)) l ⟨t, rfl⟩ := by
  constructor
  · intro h
    unfold V at h
    simp only [den] at h
    rw [Option.bind_eq_some_iff] at h
    obtain ⟨ts, h1, h2⟩ := h
    rw [denList_iff] at h1
    cases ts with
    | nil => cases h2
    | cons u us =>
      simp only [foldSeries] at h2
      split at h2
      · rename_i hd
        injection h2 with h2
        have hdim : M.dim t = M.dim u := by rw [← h2, foldl_series_dim]
        obtain ⟨ws, e⟩ := lift_list (n := M.dim t) us (fun x hx => by rw [hd.2 x hx, hdim])
        refine ⟨(by rintro rfl; cases h1), by rw [hdim]; exact hd.1, ⟨⟨u, hdim.symm⟩ :: ws, ?_, ?_⟩⟩
        · apply forall₂_lift
          rw [List.map_cons, e]; exact h1
        · apply Subtype.ext
          rw [List.prod_cons, ← foldl_series_prod, e]
          exact h2
      · cases h2
  · rintro ⟨hne, hpos, ms, h1, h2⟩
    have h3 := forall₂_sub h1
    cases ms with
    | nil => cases h1; exact absurd rfl hne
    | cons u us =>
      unfold V
      simp only [den]
      rw [denList_iff.mpr h3]
      simp only [Option.bind_some, List.map_cons, foldSeries]
      rw [if_pos]
      · rw [foldl_series_prod]
        rw [List.prod_cons] at h2
        rw [h2]
      · refine ⟨by rw [u.2]; exact hpos, ?_⟩
        intro x hx
        rw [List.mem_map] at hx
        obtain ⟨y, -, rfl⟩ := hx
        rw [y.2, u.2]

theorem V_series' {n : ℕ} {l : List (Circ A)} {t : M.Mn n} (hne : l ≠ []) (hn : 0 < n) (h : Engine.Prod (M.Vn n) l t) :
    M.V (.series l) t.1 := by
  obtain ⟨t, rfl⟩ := t
  exact V_series.mpr ⟨hne, hn, h⟩

variable (M) in
/-- `c` has value `t`, with at least one channel -/
def Vp (c : Circ A) (t : M.Mc) : Prop := M.den c = some t ∧ 0 < M.dim t

theorem forall₂_p {l : List (Circ A)} {ts : List M.Mc} :
    List.Forall₂ M.Vp l ts ↔ List.Forall₂ M.V l ts ∧ ∀ t ∈ ts, 0 < M.dim t := by
  constructor
  · intro h
    induction h with
    | nil => exact ⟨.nil, by simp⟩
    | cons h1 _ ih => exact ⟨.cons h1.1 ih.1, by simpa using ⟨h1.2, ih.2⟩⟩
  · rintro ⟨h, hp⟩
    induction h with
    | nil => exact .nil
    | cons h1 _ ih => exact .cons ⟨h1, hp _ (by simp)⟩ (ih (fun t ht => hp t (by simp [ht])))

theorem prod_p {l : List (Circ A)} {t : M.Mc} (h : Engine.Prod M.Vp l t) : Engine.Prod M.Vc l t := by
  obtain ⟨ms, h1, h2⟩ := h
  exact ⟨ms, (forall₂_p.mp h1).1, h2⟩

/-- value of a `Concatenation` -/
theorem V_concat {l : List (Circ A)} {t : M.Mc} : M.Vc (.concat l) t ↔ l ≠ [] ∧ Engine.Prod M.Vp l t := by
  constructor
  · intro h
    unfold Vc at h
    simp only [den] at h
    rw [Option.bind_eq_some_iff] at h
    obtain ⟨ts, h1, h2⟩ := h
    rw [denList_iff] at h1
    cases ts with
    | nil => cases h2
    | cons u us =>
      simp only [foldConcat] at h2
      split at h2
      · rename_i hd
        injection h2 with h2
        refine ⟨(by rintro rfl; cases h1), ⟨u :: us, forall₂_p.mpr ⟨h1, hd⟩, ?_⟩⟩
        rw [← h2, List.prod_cons]
        exact (foldl_concat_prod us u).symm
      · cases h2
  · rintro ⟨hne, ms, h1, h2⟩
    obtain ⟨h1, hp⟩ := forall₂_p.mp h1
    cases ms with
    | nil => cases h1; exact absurd rfl hne
    | cons u us =>
      unfold Vc
      simp only [den]
      rw [denList_iff.mpr (show List.Forall₂ M.V l (u :: us) from h1)]
      simp only [Option.bind_some, foldConcat]
      rw [if_pos hp, ← h2, List.prod_cons]
      exact congrArg some (foldl_concat_prod us u)

theorem V_fb {c : Circ A} {o i : ℕ} {t : M.T} : M.V (.fb c o i) t ↔ ∃ u, M.V c u ∧ M.fb u o i = some t := by
  unfold V; simp only [den]; rw [Option.bind_eq_some_iff]

theorem V_inv {c : Circ A} {t : M.T} : M.V (.inv c) t ↔ ∃ s n, c = .sym s n ∧ 0 < n ∧ t = M.inv (M.symv s n) := by
  unfold V
  constructor
  · intro h
    cases c <;> simp only [den] at h <;> try (cases h; done)
    rename_i s n
    split at h
    · injection h with h; exact ⟨s, n, rfl, by assumption, h.symm⟩
    · cases h
  · rintro ⟨s, n, rfl, h, rfl⟩
    simp only [den]; rw [if_pos h]

theorem V_sym {s n : ℕ} {t : M.T} : M.V (.sym s n) t ↔ 0 < n ∧ t = M.symv s n := by
  unfold V; simp only [den]
  constructor
  · intro h; split at h
    · injection h with h; exact ⟨by assumption, h.symm⟩
    · cases h
  · rintro ⟨h, rfl⟩; rw [if_pos h]

theorem V_perm {p : List ℕ} {t : M.T} : M.V (.perm p) t ↔ Reachable (.perm p) ∧ t = M.perm p := by
  unfold V; simp only [den]
  rw [reachable_perm, ← check_iff]
  constructor
  · intro h; split at h
    · rename_i hc; injection h with h; exact ⟨hc, h.symm⟩
    · cases h
  · rintro ⟨h, rfl⟩; rw [if_pos h]

theorem V_unique {c : Circ A} {t u : M.T} (h : M.V c t) (h' : M.V c u) : t = u := by
  unfold V at h h'; rw [h] at h'; injection h'

theorem prod_id1 (n : ℕ) : Engine.Prod M.Vp (List.replicate n (.id1 : Circ A)) (M.one n : M.Mc) := by
  induction n with
  | zero => exact .nil
  | succ n ih =>
    rw [List.replicate_succ, Engine.prod_cons_iff]
    exact ⟨M.one 1, M.one n, ⟨rfl, by rw [M.dim_one]; omega⟩, ih, by rw [Nat.add_comm]; exact (M.one_concat_one 1 n).symm⟩

theorem V_cid (n : ℕ) : M.V (cid n : Circ A) (M.one n) := by
  match n with
  | 0 => rfl
  | 1 => rfl
  | n + 2 => exact V_concat.mpr ⟨by simp, prod_id1 (n + 2)⟩

theorem V_ofPC {c : PC} (h : Reachable c) : M.V (ofPC c : Circ A) (M.perm c.tuple) := by
  cases c with
  | perm p => exact V_perm.mpr ⟨h, rfl⟩
  | cid n => show M.V (cid n) (M.perm (List.range n)); rw [M.perm_range]; exact V_cid n

/-- the only circuit with a value and no channels is `CircuitZero` -/
theorem V_zero {c : Circ A} {t : M.T} (h : M.V c t) (hd : M.dim t = 0) : c = .zero := by
  have hc := h.cdim
  rw [hd] at hc
  cases c with
  | sym s n => rw [V_sym] at h; simp only [Circ.cdim] at hc; omega
  | slh s => have := M.leaf_dim s t h; simp only [Circ.cdim] at hc; omega
  | perm p => have := perm_length_pos (V_perm.mp h).1; simp only [Circ.cdim] at hc; omega
  | id1 => simp [Circ.cdim] at hc
  | zero => rfl
  | series l => rw [V_series] at h; omega
  | concat l =>
    obtain ⟨hne, ms, h1, h2⟩ := V_concat.mp h
    cases h1 with
    | nil => exact absurd rfl hne
    | cons h3 h4 =>
      rw [List.prod_cons] at h2
      rw [← h2, show ∀ a b : M.Mc, a * b = M.concat a b from fun _ _ => rfl, M.dim_concat] at hd
      have := h3.2; omega
  | fb c o i =>
    obtain ⟨u, h1, h2⟩ := V_fb.mp h
    have := M.fb_dim _ _ _ _ h2; omega
  | inv c =>
    obtain ⟨s, n, rfl, h1, rfl⟩ := V_inv.mp h
    rw [M.dim_inv, M.dim_sym] at hd; omega

/-! ### derived laws -/

theorem inv_unique {a b : M.T} (hd : M.dim a = M.dim b) (h : M.series a b = M.one (M.dim a)) : b = M.inv a := by
  have h1 := M.one_series b
  rw [← hd, ← M.inv_series a, M.series_assoc _ _ _ (by rw [M.dim_inv]) hd, h] at h1
  rw [← h1]
  have := M.series_one (M.inv a)
  rw [M.dim_inv] at this; exact this

theorem inv_inv (a : M.T) : M.inv (M.inv a) = a := by
  symm; apply inv_unique (by rw [M.dim_inv]); rw [M.inv_series, M.dim_inv]

theorem inv_series' {a b : M.T} (hd : M.dim a = M.dim b) : M.inv (M.series a b) = M.series (M.inv b) (M.inv a) := by
  symm; apply inv_unique (by rw [M.dim_series, M.dim_series, M.dim_inv, hd])
  rw [M.series_assoc _ _ _ hd (by rw [M.dim_series, M.dim_inv]), ← M.series_assoc b _ _ (by rw [M.dim_inv]) (by rw [M.dim_inv, M.dim_inv, hd]),
    M.series_inv, ← hd]
  have := M.one_series (M.inv a)
  rw [M.dim_inv] at this
  rw [this, M.series_inv, M.dim_series]

theorem inv_concat (a b : M.T) : M.inv (M.concat a b) = M.concat (M.inv a) (M.inv b) := by
  symm; apply inv_unique (by rw [M.dim_concat, M.dim_concat, M.dim_inv, M.dim_inv])
  rw [M.interchange _ _ _ _ (by rw [M.dim_inv]) (by rw [M.dim_inv]), M.series_inv, M.series_inv, M.one_concat_one, M.dim_concat]

theorem inv_one (n : ℕ) : M.inv (M.one n) = M.one n := by
  symm; apply inv_unique (by rfl)
  have := M.one_series (M.one n)
  rw [M.dim_one] at this ⊢; exact this

theorem inv_perm {p : List ℕ} (h : Valid p) : M.inv (M.perm p) = M.perm (Perm.inv p) := by
  symm; apply inv_unique (by rw [M.dim_perm, M.dim_perm, inv_length])
  rw [← M.perm_comp _ _ h (inv_valid h) (by simp), comp_inv h, M.perm_range, M.dim_perm]

/-- inverses of values, in the series monoid -/
def invn {n : ℕ} (t : M.Mn n) : M.Mn n := ⟨M.inv t.1, by rw [M.dim_inv, t.2]⟩

theorem invn_mul {n : ℕ} (a b : M.Mn n) : invn (a * b) = invn b * invn a :=
  Subtype.ext (inv_series' (a.2.trans b.2.symm))

theorem invn_one (n : ℕ) : invn (1 : M.Mn n) = 1 := Subtype.ext (inv_one n)

end CircAlg

end QNET.Circuit
