import Verif.Visual.Join

/-! # Drawings: wires, boxes, stacks and feedback loops -/

namespace QNET.Draw

variable {P : Params}

theorem sorted_getElem_inj {l : List ℚ} (h : l.Pairwise (· < ·)) {i j : ℕ} {y : ℚ} (hi : l[i]? = some y) (hj : l[j]? = some y) : i = j := by
  have hn : l.Nodup := h.imp fun h => h.ne
  obtain ⟨hi, h1⟩ := List.getElem?_eq_some_iff.mp hi
  obtain ⟨hj, h2⟩ := List.getElem?_eq_some_iff.mp hj
  exact (hn.getElem_inj_iff).mp (h1.trans h2.symm)

/-- a picture that consists of wires only: input `k` is joined with output `p[k]` -/
theorem wires_inv {D : Pic} (p : List ℕ) (hw : 0 < D.w) (hh : 0 ≤ D.h) (hb : D.boxes = []) (hi : D.cin.length = p.length) (ho : D.cout.length = p.length) (hp : ∀ m ∈ p, m < p.length)
    (cin : ∀ y ∈ D.cin, 0 < y ∧ y < D.h) (cout : ∀ y ∈ D.cout, 0 < y ∧ y < D.h) (si : D.cin.Pairwise (· < ·)) (so : D.cout.Pairwise (· < ·))
    (hs : ∀ a b, (a, b) ∈ D.segs ↔ ∃ (k m : ℕ) (y z : ℚ), p[k]? = some m ∧ D.cin[k]? = some y ∧ D.cout[m]? = some z ∧ a = (0, y) ∧ b = (D.w, z)) : Inv P D (permNet p) where
  wpos := hw
  hpos := hh
  len := hi.trans ho.symm
  cin := cin
  cout := cout
  cin_sorted := si
  cout_sorted := so
  tail a b h := by
    obtain ⟨k, m, y, z, -, h2, h3, rfl, rfl⟩ := (hs a b).mp h
    have := cin y (List.mem_of_getElem? h2)
    exact ⟨le_rfl, hw, this⟩
  head a b h := by
    obtain ⟨k, m, y, z, -, h2, h3, rfl, rfl⟩ := (hs a b).mp h
    have := cout z (List.mem_of_getElem? h3)
    exact ⟨hw, le_rfl, this⟩
  seg_in a b h h0 := by
    obtain ⟨k, m, y, z, -, h2, h3, rfl, rfl⟩ := (hs a b).mp h
    exact List.mem_of_getElem? h2
  seg_out a b h h0 := by
    obtain ⟨k, m, y, z, -, h2, h3, rfl, rfl⟩ := (hs a b).mp h
    exact List.mem_of_getElem? h3
  box B h := by simp [hb] at h
  net s d := by
    constructor
    · rintro ⟨h⟩
      rename_i k m
      have hk : k < D.cin.length := by rw [hi]; exact (List.getElem?_eq_some_iff.mp h).1
      have hm : m < D.cout.length := by rw [ho]; exact hp m (List.mem_of_getElem? h)
      refine ⟨_, _, .inp (List.getElem?_eq_getElem hk), .out (List.getElem?_eq_getElem hm), .step ((hs _ _).mpr ⟨k, m, _, _, h, List.getElem?_eq_getElem hk, List.getElem?_eq_getElem hm, rfl, rfl⟩)⟩
    · rintro ⟨a, b, h1, h2, h3⟩
      cases h1 with
      | box h => simp [hb] at h
      | inp h1 =>
        cases h2 with
        | box h => simp [hb] at h
        | out h2 =>
          rcases h3.first with h | ⟨r, h4, h5⟩
          · injection h with h
            exact absurd h hw.ne
          · obtain ⟨k', m', y', z', h6, h7, h8, h9, rfl⟩ := (hs _ _).mp h4
            injection h9 with _ h9
            rcases h5.first with h | ⟨r, h4, h5⟩
            · injection h with _ h
              subst h h9
              rw [sorted_getElem_inj si h1 h7, sorted_getElem_inj so h2 h8]
              exact .mk h6
            · obtain ⟨_, _, _, _, _, _, _, h, _⟩ := (hs _ _).mp h4
              injection h with h
              exact absurd h.symm hw.ne

/-- straight or curved wires from `ys` to `zs` -/
def wires (w h : ℚ) (ys zs : List ℚ) : Pic := ⟨(ys.zip zs).map fun y => ((0, y.1), (w, y.2)), [], w, h, ys, zs⟩

theorem mem_zip_iff {α β : Type*} {l : List α} {m : List β} {x : α × β} : x ∈ l.zip m ↔ ∃ k : ℕ, l[k]? = some x.1 ∧ m[k]? = some x.2 := by
  rw [List.mem_iff_getElem?]
  constructor
  · rintro ⟨k, h⟩
    exact ⟨k, (List.getElem?_zip_eq_some).mp h⟩
  · rintro ⟨k, h⟩
    exact ⟨k, (List.getElem?_zip_eq_some).mpr h⟩

theorem mem_wires {w h : ℚ} {ys zs : List ℚ} {a b : Pt} : (a, b) ∈ (wires w h ys zs).segs ↔ ∃ (k : ℕ) (y z : ℚ), ys[k]? = some y ∧ zs[k]? = some z ∧ a = (0, y) ∧ b = (w, z) := by
  simp only [wires, List.mem_map, Prod.mk.injEq]
  constructor
  · rintro ⟨x, hx, rfl, rfl⟩
    obtain ⟨k, h1, h2⟩ := mem_zip_iff.mp hx
    exact ⟨k, _, _, h1, h2, rfl, rfl⟩
  · rintro ⟨k, y, z, h1, h2, rfl, rfl⟩
    exact ⟨(y, z), mem_zip_iff.mpr ⟨k, h1, h2⟩, rfl, rfl⟩

theorem straight_inv {w h : ℚ} {ys zs : List ℚ} (hw : 0 < w) (hh : 0 ≤ h) (hl : ys.length = zs.length) (hy : ∀ y ∈ ys, 0 < y ∧ y < h) (hz : ∀ y ∈ zs, 0 < y ∧ y < h) (sy : ys.Pairwise (· < ·))
    (sz : zs.Pairwise (· < ·)) : Inv P (wires w h ys zs) (permNet (List.range ys.length)) := by
  refine wires_inv _ hw hh rfl (by simp [wires]) (by simp [wires, hl]) (by simp) hy hz sy sz fun a b => ?_
  rw [mem_wires]
  constructor
  · rintro ⟨k, y, z, h1, h2, rfl, rfl⟩
    exact ⟨k, k, y, z, by rw [List.getElem?_range (List.getElem?_eq_some_iff.mp h1).1], h1, h2, rfl, rfl⟩
  · rintro ⟨k, m, y, z, h0, h1, h2, rfl, rfl⟩
    have : m = k := by
      obtain ⟨h3, h4⟩ := List.getElem?_eq_some_iff.mp h0
      simpa using h4.symm
    subst this
    exact ⟨_, y, z, h1, h2, rfl, rfl⟩

theorem perm_range {n k m : ℕ} : permNet (List.range n) (.inp k) (.out m) ↔ k = m ∧ k < n := by
  constructor
  · rintro ⟨h⟩
    obtain ⟨h3, h4⟩ := List.getElem?_eq_some_iff.mp h
    simp at h3 h4
    exact ⟨h4, h3⟩
  · rintro ⟨rfl, h⟩
    exact .mk (List.getElem?_range h)

theorem seq_range_left {n : ℕ} {N : Net} (hN : ∀ k d, N (.inp k) d → k < n) (s : Src) (d : Dst) : N s d ↔ seqNet (permNet (List.range n)) N s d := by
  constructor
  · intro h
    cases s with
    | inp k => exact .through (perm_range.mpr ⟨rfl, hN k d h⟩) h
    | box p k => exact .second h
  · rintro (h | h | ⟨h1, h2⟩)
    · nomatch h
    · exact h
    · cases h1 with
      | mk h =>
        obtain ⟨rfl, -⟩ := perm_range.mp (.mk h)
        exact h2

theorem seq_range_right {n : ℕ} {N : Net} (hN : ∀ k s, N s (.out k) → k < n) (s : Src) (d : Dst) : N s d ↔ seqNet N (permNet (List.range n)) s d := by
  constructor
  · intro h
    cases d with
    | out k => exact .through h (perm_range.mpr ⟨rfl, hN k s h⟩)
    | box p k => exact .first h
  · rintro (h | h | ⟨h1, h2⟩)
    · exact h
    · nomatch h
    · cases h2 with
      | mk h =>
        obtain ⟨rfl, -⟩ := perm_range.mp (.mk h)
        exact h1

/-! ### Elementary pictures -/

theorem halves_get {n k : ℕ} {y : ℚ} : (halves n)[k]? = some y ↔ k < n ∧ y = (k : ℚ) + 1 / 2 := by
  rw [halves, List.getElem?_map, Option.map_eq_some_iff]
  constructor
  · rintro ⟨a, h, rfl⟩
    obtain ⟨h3, h4⟩ := List.getElem?_eq_some_iff.mp h
    simp at h3 h4
    subst h4
    exact ⟨h3, rfl⟩
  · rintro ⟨h, rfl⟩
    exact ⟨k, List.getElem?_range h, rfl⟩

theorem halves_mem {n : ℕ} {y : ℚ} (h : y ∈ halves n) : 0 < y ∧ y < n := by
  obtain ⟨k, hk⟩ := List.mem_iff_getElem?.mp h
  obtain ⟨h1, rfl⟩ := halves_get.mp hk
  have h2 : (k : ℚ) + 1 ≤ n := by exact_mod_cast h1
  have h3 : (0 : ℚ) ≤ k := by positivity
  constructor <;> linarith

theorem halves_length (n : ℕ) : (halves n).length = n := by simp [halves]

theorem halves_sorted (n : ℕ) : (halves n).Pairwise (· < ·) := by
  rw [halves, List.pairwise_map]
  refine List.pairwise_lt_range.imp fun {a b} h => ?_
  have : (a : ℚ) < (b : ℚ) := by exact_mod_cast h
  linarith

theorem drawPerm_inv (hP : P.Good) {p : List ℕ} (hp : ∀ m ∈ p, m < p.length) : Inv P (drawPerm P p) (permNet p) := by
  refine wires_inv p hP.rp (by simp [drawPerm]) rfl (halves_length _) (halves_length _) hp (fun y => halves_mem) (fun y => halves_mem) (halves_sorted _) (halves_sorted _) fun a b => ?_
  simp only [drawPerm, List.mem_map, Prod.mk.injEq]
  constructor
  · rintro ⟨x, hx, rfl, rfl⟩
    obtain ⟨k, h1, h2⟩ := mem_zip_iff.mp hx
    rw [List.getElem?_map, Option.map_eq_some_iff] at h2
    obtain ⟨m, h3, h4⟩ := h2
    refine ⟨k, m, x.1, x.2, h3, h1, ?_, rfl, rfl⟩
    have hm : m < (halves p.length).length := by rw [halves_length]; exact hp m (List.mem_of_getElem? h3)
    rw [← h4, List.getD_eq_getElem?_getD, List.getElem?_eq_getElem hm]
    rfl
  · rintro ⟨k, m, y, z, h1, h2, h3, rfl, rfl⟩
    refine ⟨(y, z), mem_zip_iff.mpr ⟨k, h2, ?_⟩, rfl, rfl⟩
    rw [List.getElem?_map, h1]
    simp [List.getD_eq_getElem?_getD, h3]

theorem drawId_inv : Inv P drawId idNet := by
  have := straight_inv (P := P) (w := 1) (h := 1) (ys := [1 / 2]) (zs := [1 / 2]) (by norm_num) (by norm_num) rfl (by simp; norm_num) (by simp; norm_num) (by simp) (by simp)
  refine this.congrNet fun s d => ?_
  constructor
  · rintro ⟨⟩
    exact .mk rfl
  · rintro ⟨h⟩
    obtain ⟨rfl, h'⟩ := perm_range.mp (.mk h)
    rename_i k
    obtain rfl : k = 0 := by simpa using h'
    exact .mk

theorem drawBox_inv (hP : P.Good) (name : String) {n : ℕ} : Inv P (drawBox P name n) (boxNet n) := by
  have h1 := hP.rh
  have h2 := hP.rh'
  have mem : ∀ a b : Pt, (a, b) ∈ (drawBox P name n).segs ↔ ∃ k < n, (a = (0, (k : ℚ) + 1 / 2) ∧ b = (P.rh, (k : ℚ) + 1 / 2)) ∨ (a = (1 - P.rh, (k : ℚ) + 1 / 2) ∧ b = (1, (k : ℚ) + 1 / 2)) := by
    intro a b
    simp only [drawBox, List.mem_flatMap, List.mem_cons, List.not_mem_nil, or_false, Prod.mk.injEq]
    constructor
    · rintro ⟨y, hy, h⟩
      obtain ⟨k, hk⟩ := List.mem_iff_getElem?.mp hy
      obtain ⟨h3, rfl⟩ := halves_get.mp hk
      exact ⟨k, h3, h⟩
    · rintro ⟨k, hk, h⟩
      exact ⟨(k : ℚ) + 1 / 2, List.mem_of_getElem? (halves_get.mpr ⟨hk, rfl⟩), h⟩
  have key : ∀ k < n, (0 : ℚ) < (k : ℚ) + 1 / 2 ∧ (k : ℚ) + 1 / 2 < n := fun k hk => halves_mem (List.mem_of_getElem? (halves_get.mpr ⟨hk, rfl⟩))
  constructor
  case wpos => simp [drawBox]
  case hpos => simp [drawBox]
  case len => rfl
  case cin => exact fun y => halves_mem
  case cout => exact fun y => halves_mem
  case cin_sorted => exact halves_sorted _
  case cout_sorted => exact halves_sorted _
  case tail =>
    intro a b h
    obtain ⟨k, hk, ⟨rfl, rfl⟩ | ⟨rfl, rfl⟩⟩ := (mem a b).mp h
    · exact ⟨le_rfl, by simp [drawBox], key k hk⟩
    · exact ⟨by dsimp only; linarith, by simp [drawBox, h1], key k hk⟩
  case head =>
    intro a b h
    obtain ⟨k, hk, ⟨rfl, rfl⟩ | ⟨rfl, rfl⟩⟩ := (mem a b).mp h
    · exact ⟨h1, by simp only [drawBox]; linarith, key k hk⟩
    · exact ⟨by norm_num, by simp [drawBox], key k hk⟩
  case seg_in =>
    intro a b h h0
    obtain ⟨k, hk, ⟨rfl, rfl⟩ | ⟨rfl, rfl⟩⟩ := (mem a b).mp h
    · exact List.mem_of_getElem? (halves_get.mpr ⟨hk, rfl⟩)
    · exact List.mem_of_getElem? (halves_get.mpr ⟨hk, rfl⟩)
  case seg_out =>
    intro a b h h0
    obtain ⟨k, hk, ⟨rfl, rfl⟩ | ⟨rfl, rfl⟩⟩ := (mem a b).mp h
    · exact List.mem_of_getElem? (halves_get.mpr ⟨hk, rfl⟩)
    · exact List.mem_of_getElem? (halves_get.mpr ⟨hk, rfl⟩)
  case box =>
    intro B hB
    simp only [drawBox, List.mem_singleton] at hB
    subst hB
    simp [drawBox]
  case net =>
    have hi : ∀ {k : ℕ}, k < n → (drawBox P name n).cin[k]? = some ((k : ℚ) + 1 / 2) := fun hk => halves_get.mpr ⟨hk, rfl⟩
    have ho : ∀ {k : ℕ}, k < n → (drawBox P name n).cout[k]? = some ((k : ℚ) + 1 / 2) := fun hk => halves_get.mpr ⟨hk, rfl⟩
    have hB : (⟨[], name, n, 0, 0⟩ : Box) ∈ (drawBox P name n).boxes := by simp [drawBox]
    intro s d
    constructor
    · rintro (⟨hk⟩ | ⟨hk⟩)
      · exact ⟨_, _, .inp (hi hk), .box hB hk, .step ((mem _ _).mpr ⟨_, hk, .inl ⟨rfl, by simp⟩⟩)⟩
      · exact ⟨_, _, .box hB hk, .out (ho hk), .step ((mem _ _).mpr ⟨_, hk, .inr ⟨by simp, by simp [drawBox]⟩⟩)⟩
    · rintro ⟨p, q, h3, h4, h5⟩
      have inj : ∀ {a b : ℕ}, (a : ℚ) + 1 / 2 = b + 1 / 2 → a = b := by
        intro a b h
        have : (a : ℚ) = b := by linarith
        exact_mod_cast this
      cases h3 with
      | @inp k y h3 =>
        obtain ⟨hk, rfl⟩ := halves_get.mp h3
        have h6 : q = (P.rh, (k : ℚ) + 1 / 2) := by
          rcases h5.first with h | ⟨r, h5, h6⟩
          · cases h4 with
            | out _ => injection h with h; simp [drawBox] at h
            | box hB' _ =>
              simp only [drawBox, List.mem_singleton] at hB'
              subst hB'
              injection h with h
              dsimp only at h
              linarith
          · obtain ⟨k', hk', ⟨h7, rfl⟩ | ⟨h7, rfl⟩⟩ := (mem _ _).mp h5
            · injection h7 with _ h7
              rcases h6.first with h | ⟨r, h8, h9⟩
              · rw [h7, ← h]
              · obtain ⟨k', hk', ⟨h7, rfl⟩ | ⟨h7, rfl⟩⟩ := (mem _ _).mp h8 <;> injection h7 with h7 <;> linarith
            · injection h7 with h7
              linarith
        cases h4 with
        | out _ => injection h6 with h6; simp [drawBox] at h6; linarith
        | box hB' hk' =>
          simp only [drawBox, List.mem_singleton] at hB'
          subst hB'
          injection h6 with _ h6
          have := inj (by linarith : ((_ : ℕ) : ℚ) + 1 / 2 = (k : ℚ) + 1 / 2)
          subst this
          exact .enter hk
      | @box B k hB' hk =>
        simp only [drawBox, List.mem_singleton] at hB'
        subst hB'
        have h6 : q = (1, (k : ℚ) + 1 / 2) := by
          rcases h5.first with h | ⟨r, h5, h6⟩
          · cases h4 with
            | out _ => injection h with h; simp [drawBox] at h; linarith
            | box hB' _ =>
              simp only [drawBox, List.mem_singleton] at hB'
              subst hB'
              injection h with h
              dsimp only at h
              linarith
          · obtain ⟨k', hk', ⟨h7, rfl⟩ | ⟨h7, rfl⟩⟩ := (mem _ _).mp h5
            · injection h7 with h7
              dsimp only at h7
              linarith
            · injection h7 with _ h7
              rcases h6.first with h | ⟨r, h8, h9⟩
              · rw [← h, ← h7]; simp
              · obtain ⟨k', hk', ⟨h7, rfl⟩ | ⟨h7, rfl⟩⟩ := (mem _ _).mp h8 <;> injection h7 with h7 <;> linarith
        cases h4 with
        | out h4 =>
          obtain ⟨_, rfl⟩ := halves_get.mp h4
          injection h6 with _ h6
          rw [inj h6]
          exact .leave hk
        | box hB' hk' =>
          simp only [drawBox, List.mem_singleton] at hB'
          subst hB'
          injection h6 with h6
          dsimp only at h6
          linarith

end QNET.Draw
