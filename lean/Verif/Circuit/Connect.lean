import Verif.Circuit.Wire
import Verif.Util.KernelRfl

/-!
# Model of `connect` (`src/qnet/algebra/toolbox/circuit_manipulation.py`) and C46
-/

namespace QNET.Circuit

open QNET.Perm QNET.CPerm Inst

set_option linter.unusedSectionVars false

variable {A : Type} [Ring A] [StarRing A] [Algebra ℂ A]

/-! ### Model -/

/-- A circuit handed to `connect`: the object, a number standing for its equality class (components are compared with `==` and
hashed, lines 63-65, 70-82), and the class attributes `PORTSIN`, `PORTSOUT` (labels are numbers; `none`: no such attribute). -/
structure Component (A : Type) [Zero A] where
  circ : Circ A
  key : ℕ
  portsIn : Option (List ℕ)
  portsOut : Option (List ℕ)

/-- Reference to a component in a connection: index or the component itself. -/
inductive CompRef where
  | index (i : ℤ)
  | object (key : ℕ)

/-- Reference to a port: index or label. -/
inductive PortRef where
  | index (i : ℤ)
  | label (s : ℕ)

/-- A connection `((c1, port1), (c2, port2))`. -/
structure Connection where
  src : CompRef
  out : PortRef
  dst : CompRef
  inp : PortRef

/-- `_cumsum`, circuit_algebra.py lines 1778-1786. -/
def cumsum : (acc : ℕ) → List ℕ → List ℕ
  | _, [] => []
  | acc, x :: l => (acc + x) :: cumsum (acc + x) l

/-- `offsets = _cumsum([0] + cdims[:-1])`, lines 58-59. -/
def offsets (comps : List (Component A)) : List ℕ := cumsum 0 (0 :: (comps.map (fun c => c.circ.cdim)).dropLast)

/-- "check c1; convert to index int", lines 69-87 (the same for `c2`, lines 88-106). -/
def resolveComp (comps : List (Component A)) : CompRef → Res ℕ
  | .object key =>
    if comps.countP (fun c => c.key == key) > 1 then .error .valueError
    else if comps.countP (fun c => c.key == key) = 0 then .error .valueError
    else .ok (comps.findIdx (fun c => c.key == key))
  | .index i => if i < 0 ∨ i ≥ comps.length then .error .valueError else .ok i.toNat

/-- "check op; convert to index int", lines 107-124 (the same for `ip`, lines 125-142). -/
def resolvePort (labels : Option (List ℕ)) (cdim : ℕ) : PortRef → Res ℕ
  | .label s =>
    match labels with
    | none => .error .valueError
    | some l => if s ∈ l then .ok (l.idxOf s) else .error .valueError
  | .index i => if i < 0 ∨ i ≥ cdim then .error .valueError else .ok i.toNat

/-- The body of the loop over the connections, lines 67-147: `(op_idx, ip_idx)`. -/
def resolve (comps : List (Component A)) (conn : Connection) : Res (ℕ × ℕ) := do
  let c1 ← resolveComp comps conn.src
  let c2 ← resolveComp comps conn.dst
  let a ← getItem comps c1
  let op ← resolvePort a.portsOut a.circ.cdim conn.out
  let b ← getItem comps c2
  let ip ← resolvePort b.portsIn b.circ.cdim conn.inp
  let o1 ← getItem (offsets comps) c1
  let o2 ← getItem (offsets comps) c2
  .ok (o1 + op, o2 + ip)

/-- `d[k] = v` on a dict. -/
def dictSet (d : List (ℕ × ℕ)) (k v : ℕ) : List (ℕ × ℕ) :=
  if k ∈ d.map Prod.fst then d.map (fun e => if e.1 = k then (k, v) else e) else d ++ [(k, v)]

/-- A dict comprehension over pairs: later pairs overwrite earlier ones with the same key. -/
def dictOf (l : List (ℕ × ℕ)) : List (ℕ × ℕ) := l.foldl (fun d e => dictSet d e.1 e.2) []

/-- Lines 149-158: `imapping`, then `omapping`. (If there are more connections than channels, `range(n-nfb, n)` starts below zero;
`map_channels` then fails because its values cannot be distinct, before the keys are looked at.) -/
def mappings (n : ℕ) (ports : List (ℕ × ℕ)) : Res (PC × PC) := do
  let ks := List.range' (n - ports.length) ports.length
  let im ← mapChannels (ks.zip (ports.map Prod.snd)) n
  let om ← mapChannels (dictOf ((ports.map Prod.fst).zip ks)) n
  .ok (om, im)

/-- Lines 56-160: everything before the loops are closed; also returns the number of connections. -/
noncomputable def connectOpen (strict : Bool) (fuel : ℕ) (comps : List (Component A)) (conns : List Connection) : Res (Circ A × ℕ) := do
  let combined ← (opsAt strict fuel).concat (comps.map (fun c => c.circ))
  let ports ← conns.mapM (resolve comps)
  let (om, im) ← mappings combined.cdim ports
  let x ← (opsAt strict fuel).series [ofPC om, combined]
  let y ← (opsAt strict fuel).series [x, ofPC im]
  .ok (y, ports.length)

/-- Lines 165-166: `for k in range(nfb): combined = combined.feedback()`; the default ports are the last ones (circuit_algebra.py lines
178-201). `expand().simplify_scalar()` (lines 167-168) does not change what operators stand for. -/
noncomputable def closeLoops (strict : Bool) (fuel : ℕ) : ℕ → Circ A → Res (Circ A)
  | 0, c => .ok c
  | m + 1, c => do
    let d ← feedbackMethod strict (opsAt strict fuel) c (c.cdim - 1) (c.cdim - 1)
    closeLoops strict fuel m d

/-- `connect(components, connections)`, lines 10-170, with `force_SLH=False`. -/
noncomputable def connect (strict : Bool) (fuel : ℕ) (comps : List (Component A)) (conns : List Connection) : Res (Circ A) := do
  let (y, nfb) ← connectOpen strict fuel comps conns
  closeLoops strict fuel nfb y

/-- `connect(components, connections, force_SLH=True)`: lines 162-163. -/
noncomputable def connectSLH (ρ : ℕ → ℕ → SLH A) (strict : Bool) (fuel : ℕ) (comps : List (Component A)) (conns : List Connection) :
    Res (SLH A) := do
  let (y, nfb) ← connectOpen strict fuel comps conns
  let s ← y.toSLH ρ
  SLH.closeLast nfb s

/-! ### Specification -/

/-- The reference `c` is to component number `i`. An object that occurs several times cannot be referred to directly. -/
def RefersTo (comps : List (Component A)) (c : CompRef) (i : ℕ) : Prop :=
  match c with
  | .index z => z = i
  | .object key => ∀ (j : ℕ) (d : Component A), comps[j]? = some d → (d.key = key ↔ j = i)

/-- The reference `p` is to port number `q` of a component with the given labels. -/
def PortIs (labels : Option (List ℕ)) (p : PortRef) (q : ℕ) : Prop :=
  match p with
  | .index z => z = q
  | .label s => ∃ l, labels = some l ∧ l[q]? = some s ∧ ∀ q' : ℕ, q' < q → l[q']? ≠ some s

/-- Port `p` of component `c` is port number `k` of all components side by side. -/
def IsPort (comps : List (Component A)) (labels : Component A → Option (List ℕ)) (c : CompRef) (p : PortRef) (k : ℕ) : Prop :=
  ∃ (i q : ℕ) (d : Component A), comps[i]? = some d ∧ RefersTo comps c i ∧ q < d.circ.cdim ∧ PortIs (labels d) p q ∧
    k = ((comps.take i).map (fun c => c.circ.cdim)).sum + q

/-- output number `o` is the source of the connection -/
def IsSource (comps : List (Component A)) (conn : Connection) (o : ℕ) : Prop := IsPort comps Component.portsOut conn.src conn.out o

/-- input number `i` is the target of the connection -/
def IsTarget (comps : List (Component A)) (conn : Connection) (i : ℕ) : Prop := IsPort comps Component.portsIn conn.dst conn.inp i

/-- Components with port labels have one label per channel. -/
def Labelled (comps : List (Component A)) : Prop :=
  ∀ d ∈ comps, (∀ l, d.portsIn = some l → l.length = d.circ.cdim) ∧ (∀ l, d.portsOut = some l → l.length = d.circ.cdim)

/-- The component is the (simplified) value of a meaningful expression without `SLH` objects which stands for the triple `s`. -/
def ComponentOf (ρ : Valuation A) (fuel : ℕ) (d : Component A) (s : SLH A) : Prop :=
  ∃ e : Expr A, e.WellFormed ∧ e.Symbolic ∧ e.eval ρ.val = .ok s ∧ simplify false fuel e = .ok d.circ

/-- All components side by side. -/
def sideBySide (ss : List (SLH A)) : SLH A := ss.foldr SLH.concat (SLH.passThrough 0)

/-! ### Resolving references -/

theorem cumsum_getElem? : ∀ (l : List ℕ) (acc i : ℕ), i < l.length → (cumsum acc l)[i]? = some (acc + (l.take (i + 1)).sum)
  | [], _, _, h => by simp at h
  | x :: l, acc, 0, _ => by simp [cumsum]
  | x :: l, acc, i + 1, h => by
    rw [cumsum, List.getElem?_cons_succ, cumsum_getElem? l (acc + x) i (by simpa using h)]
    simp [Nat.add_assoc]

theorem offsets_get {comps : List (Component A)} {i : ℕ} (h : i < comps.length) :
    getItem (offsets comps) i = .ok ((comps.take i).map (fun c => c.circ.cdim)).sum := by
  unfold getItem offsets
  rw [cumsum_getElem? _ _ _ (by simp; omega)]
  simp only [List.take_succ_cons, List.sum_cons, Nat.zero_add, List.map_take]
  rw [List.dropLast_eq_take, List.take_take, List.length_map, Nat.min_eq_left (by omega)]

theorem resolveComp_spec (comps : List (Component A)) (c : CompRef) :
    (∃ i, resolveComp comps c = .ok i ∧ i < comps.length ∧ RefersTo comps c i) ∨
    (resolveComp comps c = .error .valueError ∧ ∀ i, i < comps.length → ¬ RefersTo comps c i) := by
  cases c with
  | index z =>
    simp only [resolveComp]
    by_cases h : z < 0 ∨ z ≥ comps.length
    · rw [if_pos h]
      refine Or.inr ⟨rfl, ?_⟩
      intro i hi hr
      have hr : z = i := hr
      omega
    · rw [if_neg h]
      exact Or.inl ⟨z.toNat, rfl, by omega, by show z = (z.toNat : ℤ); omega⟩
  | object key =>
    simp only [resolveComp]
    have huniq : ∀ i, i < comps.length → RefersTo comps (.object key) i → comps.countP (fun c => c.key == key) = 1 := by
      intro i hi hr
      have hr : ∀ (j : ℕ) (d : Component A), comps[j]? = some d → (d.key = key ↔ j = i) := hr
      have h1 : comps = comps.take i ++ comps[i] :: comps.drop (i + 1) := by
        rw [List.getElem_cons_drop, List.take_append_drop]
      rw [h1, List.countP_append, List.countP_cons]
      have z1 : (comps.take i).countP (fun c => c.key == key) = 0 := by
        rw [List.countP_eq_zero]
        intro d hd
        obtain ⟨j, hj⟩ := List.mem_iff_getElem?.mp hd
        have hjl : j < i := by have := (List.getElem?_eq_some_iff.mp hj).1; rw [List.length_take] at this; omega
        rw [List.getElem?_take_of_lt hjl] at hj
        have := (hr j d hj)
        simp only [beq_iff_eq]
        intro hk
        have := this.mp hk
        omega
      have z2 : (comps.drop (i + 1)).countP (fun c => c.key == key) = 0 := by
        rw [List.countP_eq_zero]
        intro d hd
        obtain ⟨j, hj⟩ := List.mem_iff_getElem?.mp hd
        rw [List.getElem?_drop] at hj
        have := (hr _ d hj)
        simp only [beq_iff_eq]
        intro hk
        have := this.mp hk
        omega
      have z3 := (hr i comps[i] (List.getElem?_eq_getElem hi)).mpr rfl
      rw [z1, z2, z3]; simp
    by_cases h : comps.countP (fun c => c.key == key) > 1
    · rw [if_pos h]
      exact Or.inr ⟨rfl, fun i hi hr => by have := huniq i hi hr; omega⟩
    · rw [if_neg h]
      by_cases h0 : comps.countP (fun c => c.key == key) = 0
      · rw [if_pos h0]
        exact Or.inr ⟨rfl, fun i hi hr => by have := huniq i hi hr; omega⟩
      · rw [if_neg h0]
        have hex : ∃ d ∈ comps, (d.key == key) = true := by
          rw [← List.countP_pos_iff]; omega
        have hlt := List.findIdx_lt_length_of_exists hex
        have hat := List.findIdx_getElem (p := fun c : Component A => c.key == key) (w := hlt)
        refine Or.inl ⟨_, rfl, hlt, ?_⟩
        show ∀ (j : ℕ) (d : Component A), comps[j]? = some d → (d.key = key ↔ j = _)
        intro j d hj
        constructor
        · intro hk
          by_contra hne
          -- two different positions with this key
          have : 2 ≤ comps.countP (fun c => c.key == key) := by
            obtain ⟨hjl, hje⟩ := List.getElem?_eq_some_iff.mp hj
            have hmin : comps.findIdx (fun c => c.key == key) ≤ j := by
              by_contra hc
              have := List.not_of_lt_findIdx (p := fun c : Component A => c.key == key) (xs := comps) (i := j) (by omega)
              rw [hje] at this
              simp [hk] at this
            set i := comps.findIdx (fun c => c.key == key) with hi
            have hij : i < j := by omega
            have h1 : comps = comps.take j ++ comps[j] :: comps.drop (j + 1) := by
              rw [List.getElem_cons_drop, List.take_append_drop]
            rw [h1, List.countP_append, List.countP_cons]
            have : 0 < (comps.take j).countP (fun c => c.key == key) := by
              rw [List.countP_pos_iff]
              refine ⟨comps[i], ?_, hat⟩
              rw [List.mem_iff_getElem?]
              exact ⟨i, by rw [List.getElem?_take_of_lt hij, List.getElem?_eq_getElem hlt]⟩
            rw [hje, hk]
            simp
            omega
          omega
        · intro hji
          subst hji
          rw [List.getElem?_eq_getElem hlt] at hj
          injection hj with hj
          rw [← hj]
          simpa using hat

theorem resolvePort_spec (labels : Option (List ℕ)) (cdim : ℕ) (hl : ∀ l, labels = some l → l.length = cdim) (p : PortRef) :
    (∃ q, resolvePort labels cdim p = .ok q ∧ q < cdim ∧ PortIs labels p q) ∨
    (resolvePort labels cdim p = .error .valueError ∧ ∀ q, q < cdim → ¬ PortIs labels p q) := by
  cases p with
  | index z =>
    simp only [resolvePort]
    by_cases h : z < 0 ∨ z ≥ cdim
    · rw [if_pos h]
      refine Or.inr ⟨rfl, ?_⟩
      intro i hi hr
      have hr : z = i := hr
      omega
    · rw [if_neg h]
      exact Or.inl ⟨z.toNat, rfl, by omega, by show z = (z.toNat : ℤ); omega⟩
  | label s =>
    simp only [resolvePort]
    cases labels with
    | none => exact Or.inr ⟨rfl, fun q _ h => by obtain ⟨l, h, _⟩ := h; cases h⟩
    | some l =>
      have hll := hl l rfl
      by_cases hs : s ∈ l
      · simp only [if_pos hs]
        have hlt := List.idxOf_lt_length_iff.mpr hs
        refine Or.inl ⟨_, rfl, by omega, l, rfl, by rw [List.getElem?_eq_getElem hlt, List.getElem_idxOf], ?_⟩
        intro q' hq' hc
        have h1 : q' < l.length := by omega
        have := List.not_of_lt_findIdx (p := (· == s)) (xs := l) (i := q') hq'
        rw [List.getElem?_eq_getElem h1] at hc
        injection hc with hc
        simp [hc] at this
      · simp only [if_neg hs]
        refine Or.inr ⟨trivial, ?_⟩
        rintro q _ ⟨l', h1, h2, -⟩
        injection h1 with h1; subst h1
        exact hs (List.mem_iff_getElem?.mpr ⟨q, h2⟩)

theorem RefersTo.unique {comps : List (Component A)} {c : CompRef} {i j : ℕ} (hi : i < comps.length) (h : RefersTo comps c i)
    (h' : RefersTo comps c j) : i = j := by
  cases c with
  | index z =>
    have h : z = i := h
    have h' : z = j := h'
    omega
  | object key =>
    have h : ∀ (k : ℕ) (d : Component A), comps[k]? = some d → (d.key = key ↔ k = i) := h
    have h' : ∀ (k : ℕ) (d : Component A), comps[k]? = some d → (d.key = key ↔ k = j) := h'
    exact (h' i _ (List.getElem?_eq_getElem hi)).mp ((h i _ (List.getElem?_eq_getElem hi)).mpr rfl)

theorem resolve_spec {comps : List (Component A)} (hl : Labelled comps) (conn : Connection) :
    (∃ o i, resolve comps conn = .ok (o, i) ∧ IsSource comps conn o ∧ IsTarget comps conn i) ∨
    (resolve comps conn = .error .valueError ∧ ¬ ((∃ o, IsSource comps conn o) ∧ ∃ i, IsTarget comps conn i)) := by
  unfold resolve
  rcases resolveComp_spec comps conn.src with ⟨c1, e1, l1, r1⟩ | ⟨e1, n1⟩
  swap
  · right
    rw [e1]
    refine ⟨rfl, ?_⟩
    rintro ⟨⟨o, i, q, d, hd, hr, -⟩, -⟩
    exact n1 i (List.getElem?_eq_some_iff.mp hd).1 hr
  rcases resolveComp_spec comps conn.dst with ⟨c2, e2, l2, r2⟩ | ⟨e2, n2⟩
  swap
  · right
    rw [e1, e2]
    refine ⟨rfl, ?_⟩
    rintro ⟨-, o, i, q, d, hd, hr, -⟩
    exact n2 i (List.getElem?_eq_some_iff.mp hd).1 hr
  have g1 : comps[c1]? = some comps[c1] := List.getElem?_eq_getElem l1
  have g2 : comps[c2]? = some comps[c2] := List.getElem?_eq_getElem l2
  have g1' : getItem comps c1 = .ok comps[c1] := by unfold getItem; rw [g1]
  have g2' : getItem comps c2 = .ok comps[c2] := by unfold getItem; rw [g2]
  have o1 := offsets_get l1
  have o2 := offsets_get l2
  rcases resolvePort_spec comps[c1].portsOut comps[c1].circ.cdim (hl _ (List.getElem_mem l1)).2 conn.out with ⟨q1, f1, k1, p1⟩ | ⟨f1, m1⟩
  swap
  · right
    simp only [bind, Except.bind, e1, e2, g1', f1]
    refine ⟨trivial, ?_⟩
    rintro ⟨⟨o, i, q, d, hd, hr, hq, hp, -⟩, -⟩
    have := RefersTo.unique l1 r1 hr
    subst this
    rw [g1] at hd; injection hd with hd; subst hd
    exact m1 q hq hp
  rcases resolvePort_spec comps[c2].portsIn comps[c2].circ.cdim (hl _ (List.getElem_mem l2)).1 conn.inp with ⟨q2, f2, k2, p2⟩ | ⟨f2, m2⟩
  swap
  · right
    simp only [bind, Except.bind, e1, e2, g1', g2', f1, f2]
    refine ⟨trivial, ?_⟩
    rintro ⟨-, o, i, q, d, hd, hr, hq, hp, -⟩
    have := RefersTo.unique l2 r2 hr
    subst this
    rw [g2] at hd; injection hd with hd; subst hd
    exact m2 q hq hp
  left
  simp only [bind, Except.bind, e1, e2, g1', g2', f1, f2, o1, o2]
  exact ⟨_, _, rfl, ⟨c1, q1, _, g1, r1, k1, p1, rfl⟩, ⟨c2, q2, _, g2, r2, k2, p2, rfl⟩⟩

theorem IsPort.unique {comps : List (Component A)} {labels : Component A → Option (List ℕ)} {c : CompRef} {p : PortRef} {k k' : ℕ}
    (h : IsPort comps labels c p k) (h' : IsPort comps labels c p k') : k = k' := by
  obtain ⟨i, q, d, h1, h2, h3, h4, rfl⟩ := h
  obtain ⟨i', q', d', h1', h2', h3', h4', rfl⟩ := h'
  have := RefersTo.unique (List.getElem?_eq_some_iff.mp h1).1 h2 h2'
  subst this
  rw [h1] at h1'; injection h1' with h1'; subst h1'
  congr 1
  cases p with
  | index z =>
    have h4 : z = q := h4
    have h4' : z = q' := h4'
    omega
  | label s =>
    obtain ⟨l, a1, a2, a3⟩ := h4
    obtain ⟨l', b1, b2, b3⟩ := h4'
    rw [a1] at b1; injection b1 with b1; subst b1
    rcases Nat.lt_trichotomy q q' with h | h | h
    · exact absurd a2 (b3 q h)
    · exact h
    · exact absurd b2 (a3 q' h)

theorem IsPort.lt {comps : List (Component A)} {labels : Component A → Option (List ℕ)} {c : CompRef} {p : PortRef} {k : ℕ}
    (h : IsPort comps labels c p k) : k < (comps.map (fun c => c.circ.cdim)).sum := by
  obtain ⟨i, q, d, h1, -, h3, -, rfl⟩ := h
  obtain ⟨hi, rfl⟩ := List.getElem?_eq_some_iff.mp h1
  have : comps = comps.take i ++ comps[i] :: comps.drop (i + 1) := by
    rw [List.getElem_cons_drop, List.take_append_drop]
  conv_rhs => rw [this]
  rw [List.map_append, List.sum_append, List.map_cons, List.sum_cons]
  omega

/-! ### The mappings -/

theorem dictOf_nodup {l : List (ℕ × ℕ)} (h : (l.map Prod.fst).Nodup) : dictOf l = l := by
  have key : ∀ (l d : List (ℕ × ℕ)), ((d ++ l).map Prod.fst).Nodup → l.foldl (fun d e => dictSet d e.1 e.2) d = d ++ l := by
    intro l
    induction l with
    | nil => intro d _; simp
    | cons e l ih =>
      intro d hd
      rw [List.foldl_cons]
      have : dictSet d e.1 e.2 = d ++ [e] := by
        unfold dictSet
        rw [if_neg]
        intro hc
        rw [List.map_append, List.nodup_append] at hd
        exact hd.2.2 e.1 hc e.1 (by simp) rfl
      rw [this, ih (d ++ [e]) (by simpa using hd)]
      simp
  exact key l [] (by simpa using h)

theorem mapM_resolve {comps : List (Component A)} (hl : Labelled comps) : ∀ (conns : List Connection),
    (∃ ports, conns.mapM (resolve comps) = .ok ports ∧ List.Forall₂ (IsSource comps) conns (ports.map Prod.fst) ∧
      List.Forall₂ (IsTarget comps) conns (ports.map Prod.snd)) ∨
    (conns.mapM (resolve comps) = .error .valueError ∧ ∃ conn ∈ conns, ¬ ((∃ o, IsSource comps conn o) ∧ ∃ i, IsTarget comps conn i))
  | [] => Or.inl ⟨[], rfl, .nil, .nil⟩
  | conn :: conns => by
    rw [List.mapM_cons]
    rcases resolve_spec hl conn with ⟨o, i, e, h1, h2⟩ | ⟨e, hn⟩
    · rcases mapM_resolve hl conns with ⟨ports, e', h3, h4⟩ | ⟨e', c, hc, hn⟩
      · left
        exact ⟨(o, i) :: ports, by rw [e, e']; rfl, .cons h1 h3, .cons h2 h4⟩
      · right
        exact ⟨by rw [e, e']; rfl, c, List.mem_cons_of_mem _ hc, hn⟩
    · right
      exact ⟨by rw [e]; rfl, conn, List.mem_cons_self, hn⟩

theorem mappings_rejects {n : ℕ} {ports : List (ℕ × ℕ)} (h : ¬ (ports.map Prod.snd).Nodup) : mappings n ports = .error .valueError := by
  unfold mappings
  dsimp only
  rw [C09_map_channels_rejects]
  · rfl
  · rintro ⟨h1, -⟩
    rw [List.map_snd_zip (by simp)] at h1
    exact h h1

theorem mappings_ins_nodup {n : ℕ} {ports : List (ℕ × ℕ)} {x : PC × PC} (h : mappings n ports = .ok x) : (ports.map Prod.snd).Nodup := by
  by_contra hc
  rw [mappings_rejects hc] at h
  cases h

theorem nodup_length_le {l : List ℕ} {n : ℕ} (h : l.Nodup) (hlt : ∀ x ∈ l, x < n) : l.length ≤ n := by
  have := (List.subperm_of_subset h (fun x hx => List.mem_range.mpr (hlt x hx))).length_le
  simpa using this

theorem mappings_ok {n : ℕ} {outs ins : List ℕ} {ports : List (ℕ × ℕ)} (ho : ports.map Prod.fst = outs) (hi : ports.map Prod.snd = ins)
    (hon : outs.Nodup) (hin : ins.Nodup) (hol : ∀ o ∈ outs, o < n) (hil : ∀ i ∈ ins, i < n) :
    ∃ om im, mappings n ports = .ok (om, im) ∧ Reachable om ∧ Reachable im ∧ om.cdim = n ∧ im.cdim = n ∧
      (∀ k o : ℕ, outs[k]? = some o → om.tuple[o]? = some (n - outs.length + k)) ∧
      (∀ i j x y : ℕ, i < j → i ∉ outs → j ∉ outs → om.tuple[i]? = some x → om.tuple[j]? = some y → x < y) ∧
      (∀ k i : ℕ, ins[k]? = some i → im.tuple[n - outs.length + k]? = some i) ∧
      (∀ i j x y : ℕ, i < j → j < n - outs.length → im.tuple[i]? = some x → im.tuple[j]? = some y → x < y) := by
  have hpl : ports.length = outs.length := by rw [← ho]; simp
  have hpl' : ins.length = outs.length := by rw [← hi, ← ho]; simp
  have hle : outs.length ≤ n := nodup_length_le hon hol
  have hks : (List.range' (n - ports.length) ports.length).length = outs.length := by simp [hpl]
  have m1 : ((List.range' (n - ports.length) ports.length).zip ins).map Prod.fst = List.range' (n - ports.length) ports.length :=
    List.map_fst_zip (by omega)
  have m2 : ((List.range' (n - ports.length) ports.length).zip ins).map Prod.snd = ins := List.map_snd_zip (by omega)
  have m3 : (outs.zip (List.range' (n - ports.length) ports.length)).map Prod.fst = outs := List.map_fst_zip (by omega)
  have m4 : (outs.zip (List.range' (n - ports.length) ports.length)).map Prod.snd = List.range' (n - ports.length) ports.length :=
    List.map_snd_zip (by omega)
  obtain ⟨im, e1, b1, c1, l1, k1, o1⟩ := C09_map_channels (m := (List.range' (n - ports.length) ports.length).zip ins) (n := n)
    (by rw [m1]; exact List.nodup_range') (by rw [m2]; exact hin)
    (by
      intro k v hkv
      have hk := (List.of_mem_zip hkv).1
      have hv := (List.of_mem_zip hkv).2
      rw [List.mem_range'_1] at hk
      exact ⟨by omega, hil v hv⟩)
  obtain ⟨om, e2, b2, c2, l2, k2, o2⟩ := C09_map_channels (m := outs.zip (List.range' (n - ports.length) ports.length)) (n := n)
    (by rw [m3]; exact hon) (by rw [m4]; exact List.nodup_range')
    (by
      intro k v hkv
      have hk := (List.of_mem_zip hkv).1
      have hv := (List.of_mem_zip hkv).2
      rw [List.mem_range'_1] at hv
      exact ⟨hol k hk, by omega⟩)
  have mc : ∀ {m : List (ℕ × ℕ)} {c : PC}, mapChannels m n = .ok c → Reachable c := by
    intro m c h
    unfold mapChannels at h
    obtain ⟨p, -, h⟩ := bind_ok.mp h
    exact ⟨p, h⟩
  refine ⟨om, im, ?_, mc e2, mc e1, c2, c1, ?_, ?_, ?_, ?_⟩
  · unfold mappings
    dsimp only
    rw [ho, hi, e1, dictOf_nodup (by rw [m3]; exact hon), e2]; rfl
  · intro k o hk
    apply k2
    rw [List.mem_iff_getElem?]
    refine ⟨k, ?_⟩
    have := (List.getElem?_eq_some_iff.mp hk).1
    rw [List.getElem?_zip_eq_some, hpl]
    exact ⟨hk, by rw [List.getElem?_range' (by omega)]; simp⟩
  · intro i j x y hij hi' hj'
    exact o2 i j x y hij (fun v hv => hi' (List.of_mem_zip hv).1) (fun v hv => hj' (List.of_mem_zip hv).1)
  · intro k i hk
    apply k1
    rw [List.mem_iff_getElem?]
    refine ⟨k, ?_⟩
    have := (List.getElem?_eq_some_iff.mp hk).1
    rw [List.getElem?_zip_eq_some, hpl]
    exact ⟨by rw [List.getElem?_range' (by omega)]; simp, hk⟩
  · intro i j x y hij hj'
    refine o1 i j x y hij ?_ ?_
    · intro v hv
      have := (List.of_mem_zip hv).1
      rw [List.mem_range'_1] at this
      omega
    · intro v hv
      have := (List.of_mem_zip hv).1
      rw [List.mem_range'_1] at this
      omega

/-! ### Values -/

variable [StarModule ℂ A]

section
variable {ρ : Valuation A} {leaf : SLH A → Option (T A)} {h1 h2 h3 h4 h5}

theorem concat_value {comps : List (Component A)} {ss : List (SLH A)} {strict : Bool} {fuel : ℕ} {c : Circ A}
    (hst : CircAlg.Strict (slhAlgWith ρ leaf h1 h2 h3 h4 h5) strict)
    (hv : List.Forall₂ (fun (d : Component A) (s : SLH A) => ∃ t : T A, (slhAlgWith ρ leaf h1 h2 h3 h4 h5).V d.circ t ∧ t.1 = s) comps ss)
    (h : (opsAt strict fuel).concat (comps.map (fun c => c.circ)) = .ok c) :
    ∃ t : T A, (slhAlgWith ρ leaf h1 h2 h3 h4 h5).V c t ∧ t.1 = sideBySide ss ∧ (sideBySide ss).n = (comps.map (fun c => c.circ.cdim)).sum := by
  have key : ∃ ts : List (T A), List.Forall₂ (slhAlgWith ρ leaf h1 h2 h3 h4 h5).V (comps.map (fun c => c.circ)) ts ∧
      (ts.foldr Inst.concat (Inst.one 0)).1 = sideBySide ss ∧ (sideBySide ss).n = (comps.map (fun c => c.circ.cdim)).sum := by
    clear h
    induction hv with
    | nil => exact ⟨[], .nil, rfl, rfl⟩
    | @cons d s comps ss hd _ ih =>
      obtain ⟨t, v1, e1⟩ := hd
      obtain ⟨ts, v2, e2, e3⟩ := ih
      have hdim : d.circ.cdim = t.1.n := CircAlg.V.cdim (M := slhAlgWith ρ leaf h1 h2 h3 h4 h5) v1
      refine ⟨t :: ts, .cons v1 v2, ?_, ?_⟩
      · show SLH.concat t.1 (ts.foldr Inst.concat (Inst.one 0)).1 = SLH.concat s (sideBySide ss)
        rw [e1, e2]
      · show s.n + (sideBySide ss).n = _
        rw [e3, List.map_cons, List.sum_cons, hdim, e1]
  obtain ⟨ts, v, e, en⟩ := key
  have := (CircAlg.opsAt_sound hst fuel).concat (m := List.prod (α := (slhAlgWith ρ leaf h1 h2 h3 h4 h5).Mc) ts) ⟨ts, v, rfl⟩ h
  exact ⟨_, this, by rw [← e]; rfl, en⟩

theorem perm_val {p : List ℕ} (h : Valid p) : (Inst.perm p : T A).1 = SLH.ofPerm p := by unfold Inst.perm; rw [dif_pos h]

theorem series_val {a b : T A} (h : a.1.n = b.1.n) : (Inst.series a b).1 = SLH.series a.1 b.1 := by unfold Inst.series; rw [dif_pos h]

theorem closeLoops_value {strict : Bool} {fuel : ℕ} (hst : CircAlg.Strict (slhAlgWith ρ leaf h1 h2 h3 h4 h5) strict) :
    ∀ (m : ℕ) (c c' : Circ A) (t : T A) (r : SLH A), (slhAlgWith ρ leaf h1 h2 h3 h4 h5).V c t → m < t.1.n →
      SLH.closeLast m t.1 = .ok r → closeLoops strict fuel m c = .ok c' → ∃ t' : T A, (slhAlgWith ρ leaf h1 h2 h3 h4 h5).V c' t' ∧ t'.1 = r
  | 0, c, c', t, r, hv, _, h, h' => by
    injection h with h; injection h' with h'
    subst h'
    exact ⟨t, hv, h⟩
  | m + 1, c, c', t, r, hv, hm, h, h' => by
    obtain ⟨b, hb, h⟩ := bind_ok.mp h
    obtain ⟨d, hd, h'⟩ := bind_ok.mp h'
    have hdim : c.cdim = t.1.n := CircAlg.V.cdim (M := slhAlgWith ρ leaf h1 h2 h3 h4 h5) hv
    rw [hdim] at hd
    have hlt : t.1.n - 1 < t.1.n := by omega
    obtain ⟨z, hz, hxx⟩ := (SLH.C16_error_iff t.2.1.1 hlt hlt).1.mp ⟨_, hb⟩
    obtain ⟨b', e, h6, -, h7, h8⟩ := SLH.feedback_ok t.2.1.1 hlt hlt hz hxx
    rw [hb] at e; injection e with e; subst e
    have hfb : Inst.fb t (t.1.n - 1) (t.1.n - 1) = some ⟨b, ⟨h7, h8 t.2.1.2⟩, fun h0 => by omega⟩ :=
      fb_iff.mpr ⟨by omega, hlt, hlt, hb⟩
    have hv' := CircAlg.feedbackMethod_sound (M := slhAlgWith ρ leaf h1 h2 h3 h4 h5) hst (CircAlg.opsAt_sound hst fuel) hv hfb hd
    exact closeLoops_value hst m d c' _ r hv' (by show m < b.n; omega) h h'

/-- what `connectOpen` returns -/
theorem connectOpen_value {comps : List (Component A)} {conns : List Connection} {ss : List (SLH A)} {strict : Bool} {fuel nfb : ℕ} {y : Circ A}
    (hst : CircAlg.Strict (slhAlgWith ρ leaf h1 h2 h3 h4 h5) strict) (hlab : Labelled comps)
    (hv : List.Forall₂ (fun (d : Component A) (s : SLH A) => ∃ t : T A, (slhAlgWith ρ leaf h1 h2 h3 h4 h5).V d.circ t ∧ t.1 = s) comps ss)
    (h : connectOpen strict fuel comps conns = .ok (y, nfb)) :
    ∃ outs ins, List.Forall₂ (IsSource comps) conns outs ∧ List.Forall₂ (IsTarget comps) conns ins ∧ ins.Nodup ∧ nfb = outs.length ∧
      nfb ≤ (sideBySide ss).n ∧
      (outs.Nodup → ∃ t : T A, (slhAlgWith ρ leaf h1 h2 h3 h4 h5).V y t ∧ t.1.n = (sideBySide ss).n ∧
        ∀ r, SLH.closeLast nfb t.1 = .ok r → SLH.Wired (sideBySide ss) r outs ins) := by
  unfold connectOpen at h
  obtain ⟨combined, g1, h⟩ := bind_ok.mp h
  obtain ⟨ports, g2, h⟩ := bind_ok.mp h
  obtain ⟨⟨om, im⟩, g3, h⟩ := bind_ok.mp h
  obtain ⟨x, g4, h⟩ := bind_ok.mp h
  obtain ⟨y', g5, h⟩ := bind_ok.mp h
  injection h with h; injection h with hy hn
  subst hy
  rcases mapM_resolve hlab conns with ⟨ports', e, hs, ht⟩ | ⟨e, -⟩
  swap
  · rw [g2] at e; cases e
  rw [g2] at e; injection e with e; subst e
  have hin := mappings_ins_nodup g3
  obtain ⟨t, v, e1, e2⟩ := concat_value hst hv g1
  have hcd : combined.cdim = t.1.n := CircAlg.V.cdim (M := slhAlgWith ρ leaf h1 h2 h3 h4 h5) v
  have hil : ∀ i ∈ ports.map Prod.snd, i < (sideBySide ss).n := by
    intro i hi
    obtain ⟨k, hk, hi'⟩ := List.getElem_of_mem hi
    have := (List.forall₂_iff_get.mp ht).2 k (by rw [(List.forall₂_iff_get.mp ht).1]; exact hk) hk
    rw [List.get_eq_getElem, List.get_eq_getElem, hi'] at this
    rw [e2]; exact this.lt
  have hol : ∀ i ∈ ports.map Prod.fst, i < (sideBySide ss).n := by
    intro i hi
    obtain ⟨k, hk, hi'⟩ := List.getElem_of_mem hi
    have := (List.forall₂_iff_get.mp hs).2 k (by rw [(List.forall₂_iff_get.mp hs).1]; exact hk) hk
    rw [List.get_eq_getElem, List.get_eq_getElem, hi'] at this
    rw [e2]; exact this.lt
  refine ⟨_, _, hs, ht, hin, by simp [← hn], ?_, ?_⟩
  · rw [← hn]
    have := nodup_length_le hin hil
    simpa using this
  · intro hon
    obtain ⟨om', im', f, r1, r2, c1, c2, p1, p2, p3, p4⟩ := mappings_ok rfl rfl hon hin hol hil
    rw [hcd, e1, f] at g3
    injection g3 with g3; injection g3 with g3 g3'
    subst g3 g3'
    have l1 : om'.tuple.length = (sideBySide ss).n := by rw [← r1.cdim, c1]
    have l2 : im'.tuple.length = (sideBySide ss).n := by rw [← r2.cdim, c2]
    have v1 : (slhAlgWith ρ leaf h1 h2 h3 h4 h5).V (ofPC om') (Inst.perm om'.tuple) := CircAlg.V_ofPC (M := slhAlgWith ρ leaf h1 h2 h3 h4 h5) r1
    have v2 : (slhAlgWith ρ leaf h1 h2 h3 h4 h5).V (ofPC im') (Inst.perm im'.tuple) := CircAlg.V_ofPC (M := slhAlgWith ρ leaf h1 h2 h3 h4 h5) r2
    have d1 : (Inst.perm om'.tuple : T A).1.n = t.1.n := by rw [n_perm, l1, e1]
    have w1 := (CircAlg.opsAt_sound hst fuel).series2 v1 v d1 g4
    have d2 : (Inst.series (Inst.perm om'.tuple) t).1.n = (Inst.perm im'.tuple : T A).1.n := by rw [n_series, n_perm, n_perm, l1, l2]
    have w2 := (CircAlg.opsAt_sound hst fuel).series2 w1 v2 d2 g5
    have hval : (Inst.series (Inst.series (Inst.perm om'.tuple) t) (Inst.perm im'.tuple)).1 =
        SLH.series (SLH.series (SLH.ofPerm om'.tuple) (sideBySide ss)) (SLH.ofPerm im'.tuple) := by
      rw [series_val d2, series_val d1, perm_val r1.valid, perm_val r2.valid, e1]
    refine ⟨_, w2, ?_, ?_⟩
    · show (Inst.series (Inst.series (Inst.perm om'.tuple) t) (Inst.perm im'.tuple)).1.n = _
      rw [n_series, n_series, n_perm, l1]
    · intro r hr
      have hr' : SLH.closeLast nfb (Inst.series (Inst.series (Inst.perm om'.tuple) t) (Inst.perm im'.tuple)).1 = .ok r := hr
      rw [hval, ← hn] at hr'
      have hlen : (ports.map Prod.fst).length = ports.length := by simp
      rw [← hlen] at hr'
      refine SLH.wired_of_perms (e1 ▸ t.2.1.1) r1.valid r2.valid l1 l2 (by simp) ?_ p1 p2 p3 p4 hr'
      exact nodup_length_le hon hol

end

/-! ### C46 -/

theorem forall₂_unique {α β : Type} {R : α → β → Prop} (hR : ∀ a b b', R a b → R a b' → b = b') :
    ∀ {l : List α} {m m' : List β}, List.Forall₂ R l m → List.Forall₂ R l m' → m = m'
  | [], _, _, .nil, .nil => rfl
  | _ :: _, _, _, .cons a l, .cons b l' => by rw [hR _ _ _ a b, forall₂_unique hR l l']

theorem componentOf_value {ρ : Valuation A} {fuel : ℕ} {comps : List (Component A)} {ss : List (SLH A)}
    (hc : List.Forall₂ (ComponentOf ρ fuel) comps ss) :
    List.Forall₂ (fun (d : Component A) (s : SLH A) => ∃ t : T A, (symAlg ρ).V d.circ t ∧ t.1 = s) comps ss := by
  refine List.Forall₂.imp ?_ hc
  rintro d s ⟨e, hw, hsym, hs, hd⟩
  obtain ⟨t, e1, e2, -⟩ := mean_of_eval (ρ := ρ) (leaf := fun _ => none) (h1 := fun _ _ h => nomatch h) (h2 := fun _ _ _ _ h => nomatch h)
    (h3 := fun _ _ _ _ h => nomatch h) (h4 := fun _ _ h => nomatch h) (h5 := fun _ _ _ _ _ _ h => nomatch h) e s hw (leavesIn_symbolic _ e hsym) hs
  exact ⟨t, CircAlg.simplify_sound (M := symAlg ρ) (s := false) (Or.inr (fun _ => rfl)) e1 hd, e2⟩

/-- C46, `connect(components, connections, force_SLH=True)`: if it returns, then every connection refers to existing ports, no
input is used twice, and, if no output is used twice, the result is the system of all components side by side in which for
every connection the output is fed into the input; the remaining ports keep their order. Missing: rejection of outputs
that are used twice, which is false (`C46_refuted_output_twice`). -/
theorem C46_wiring_partial (ρ : Valuation A) {comps : List (Component A)} {conns : List Connection} {ss : List (SLH A)} {fuel : ℕ} {r : SLH A}
    (hlab : Labelled comps) (hc : List.Forall₂ (ComponentOf ρ fuel) comps ss) (h : connectSLH ρ.val false fuel comps conns = .ok r) :
    ∃ outs ins, List.Forall₂ (IsSource comps) conns outs ∧ List.Forall₂ (IsTarget comps) conns ins ∧ ins.Nodup ∧
      (outs.Nodup → SLH.Wired (sideBySide ss) r outs ins) := by
  unfold connectSLH at h
  obtain ⟨⟨y, nfb⟩, g1, h⟩ := bind_ok.mp h
  obtain ⟨s, g2, h⟩ := bind_ok.mp h
  obtain ⟨outs, ins, k1, k2, k3, k4, -, k5⟩ := connectOpen_value (ρ := ρ) (leaf := fun _ => none) (strict := false) (Or.inr (fun _ => rfl)) hlab
    (componentOf_value hc) g1
  refine ⟨outs, ins, k1, k2, k3, fun hon => ?_⟩
  obtain ⟨t, v, -, hw⟩ := k5 hon
  have := toSLH_of_den (leaf := fun _ => none) (fun _ _ h => (nomatch (h : none = some _))) y t v
  rw [g2] at this; injection this with this; subst this
  exact hw r h

/-- C46, `connect(components, connections)` with automatic rewriting: when the loops are well posed (that is, `force_SLH=True`
succeeds), no output is used twice and at least one channel stays open, the returned circuit has the same triple. -/
theorem C46_symbolic_partial (ρ : Valuation A) {comps : List (Component A)} {conns : List Connection} {ss : List (SLH A)} {fuel : ℕ} {r : SLH A}
    {c : Circ A} {outs : List ℕ} (hlab : Labelled comps) (hc : List.Forall₂ (ComponentOf ρ fuel) comps ss)
    (h : connectSLH ρ.val false fuel comps conns = .ok r) (hs : List.Forall₂ (IsSource comps) conns outs) (hon : outs.Nodup)
    (hopen : conns.length < (sideBySide ss).n) (h' : connect false fuel comps conns = .ok c) :
    c.toSLH ρ.val = .ok r := by
  unfold connectSLH at h
  unfold connect at h'
  obtain ⟨⟨y, nfb⟩, g1, h⟩ := bind_ok.mp h
  obtain ⟨⟨y', nfb'⟩, g1', h'⟩ := bind_ok.mp h'
  rw [g1] at g1'; injection g1' with g1'; injection g1' with e1 e2
  subst e1 e2
  obtain ⟨s, g2, h⟩ := bind_ok.mp h
  obtain ⟨outs', ins, k1, k2, k3, k4, -, k5⟩ := connectOpen_value (ρ := ρ) (leaf := fun _ => none) (strict := false) (Or.inr (fun _ => rfl)) hlab
    (componentOf_value hc) g1
  have houts : outs' = outs := forall₂_unique (R := IsSource comps) (fun _ _ _ a b => IsPort.unique a b) k1 hs
  subst houts
  obtain ⟨t, v, hn, -⟩ := k5 hon
  have := toSLH_of_den (leaf := fun _ => none) (fun _ _ h => (nomatch (h : none = some _))) y t v
  rw [g2] at this; injection this with this; subst this
  obtain ⟨t', v', e⟩ := closeLoops_value (ρ := ρ) (leaf := fun _ => none) (strict := false) (Or.inr (fun _ => rfl)) nfb y c t r v
    (by rw [hn, k4, ← k1.length_eq]; exact hopen) h h'
  have := toSLH_of_den (leaf := fun _ => none) (fun _ _ h => (nomatch (h : none = some _))) c t' v'
  rw [this, e]

/-- The component is the (simplified) value of a meaningful expression, possibly with `SLH` objects, which stands for the triple `s`;
its evaluation does not close the only channel of an `SLH` triple (see `C17_slh_partial`). -/
def ComponentOfSLH (ρ : Valuation A) (fuel : ℕ) (d : Component A) (s : SLH A) : Prop :=
  ∃ e : Expr A, e.WellFormed ∧ e.eval ρ.val = .ok s ∧ simplify true fuel e = .ok d.circ

theorem connectOpen_mono {b b' : Bool} (hb : b' = true → b = true) (fuel : ℕ) (comps : List (Component A)) (conns : List Connection) :
    Le (connectOpen b fuel comps conns) (connectOpen b' fuel comps conns) := by
  have h := opsAt_mono (A := A) hb (Nat.le_refl fuel)
  unfold connectOpen
  exact (h.concat _).bind fun _ => (Le.refl _).bind fun _ => (Le.refl _).bind fun _ => (h.series _).bind fun _ => (h.series _).bind fun _ => Le.refl _

/-- C46 for components with `SLH` objects, `force_SLH=True`, if no single-channel triple is closed while the components are combined. -/
theorem C46_wiring_slh_partial (ρ : Valuation A) {comps : List (Component A)} {conns : List Connection} {ss : List (SLH A)} {fuel : ℕ} {r : SLH A}
    (hlab : Labelled comps) (hc : List.Forall₂ (ComponentOfSLH ρ fuel) comps ss) (h : connectSLH ρ.val true fuel comps conns = .ok r) :
    connectSLH ρ.val false fuel comps conns = .ok r ∧
    ∃ outs ins, List.Forall₂ (IsSource comps) conns outs ∧ List.Forall₂ (IsTarget comps) conns ins ∧ ins.Nodup ∧
      (outs.Nodup → SLH.Wired (sideBySide ss) r outs ins) := by
  refine ⟨(connectOpen_mono (b := true) (b' := false) (by simp) fuel comps conns).bind (fun _ => Le.refl _) r h, ?_⟩
  unfold connectSLH at h
  obtain ⟨⟨y, nfb⟩, g1, h⟩ := bind_ok.mp h
  obtain ⟨s, g2, h⟩ := bind_ok.mp h
  have hv : List.Forall₂ (fun (d : Component A) (s : SLH A) => ∃ t : T A, (slhAlg ρ).V d.circ t ∧ t.1 = s) comps ss := by
    refine List.Forall₂.imp ?_ hc
    rintro d s ⟨e, hw, hs, hd⟩
    obtain ⟨t, e1, e2, -⟩ := mean_of_eval (ρ := ρ) (leaf := leafT) e s hw (leavesIn_wf e hw) hs
    exact ⟨t, CircAlg.simplify_sound (M := slhAlg ρ) (s := true) (Or.inl rfl) e1 hd, e2⟩
  obtain ⟨outs, ins, k1, k2, k3, k4, -, k5⟩ := connectOpen_value (ρ := ρ) (leaf := leafT) (strict := true) (Or.inl rfl) hlab hv g1
  refine ⟨outs, ins, k1, k2, k3, fun hon => ?_⟩
  obtain ⟨t, v, -, hw⟩ := k5 hon
  have := toSLH_of_den (fun _ _ h => (leafT_iff.mp h).1) y t v
  rw [g2] at this; injection this with this; subst this
  exact hw r h

/-- C46: a connection with an unknown, ambiguous or out-of-range component or port is rejected with `ValueError`. -/
theorem C46_rejects_invalid {comps : List (Component A)} {conns : List Connection} {strict : Bool} {fuel : ℕ} {combined : Circ A}
    (hlab : Labelled comps) (hcomb : (opsAt strict fuel).concat (comps.map (fun c => c.circ)) = .ok combined) {conn : Connection} (hm : conn ∈ conns)
    (hbad : ¬ ((∃ o, IsSource comps conn o) ∧ ∃ i, IsTarget comps conn i)) :
    connect strict fuel comps conns = .error .valueError ∧ ∀ ρ, connectSLH ρ strict fuel comps conns = .error .valueError := by
  have key : connectOpen strict fuel comps conns = .error .valueError := by
    unfold connectOpen
    rw [hcomb]
    rcases mapM_resolve hlab conns with ⟨ports, e, hs, ht⟩ | ⟨e, -⟩
    · exfalso
      obtain ⟨k, hk, hk'⟩ := List.getElem_of_mem hm
      have hk2 : k < (ports.map Prod.fst).length := by rw [← hs.length_eq]; exact hk
      have hk3 : k < (ports.map Prod.snd).length := by rw [← ht.length_eq]; exact hk
      have a := (List.forall₂_iff_get.mp hs).2 k hk hk2
      have b := (List.forall₂_iff_get.mp ht).2 k hk hk3
      rw [List.get_eq_getElem, hk'] at a b
      exact hbad ⟨⟨_, a⟩, ⟨_, b⟩⟩
    · show (do let ports ← conns.mapM (resolve comps); _) = _
      rw [e]; rfl
  refine ⟨by unfold connect; rw [key]; rfl, fun ρ => by unfold connectSLH; rw [key]; rfl⟩

/-- C46: using an input twice is rejected with `ValueError`. -/
theorem C46_rejects_input_twice {comps : List (Component A)} {conns : List Connection} {strict : Bool} {fuel : ℕ} {combined : Circ A}
    (hlab : Labelled comps) (hcomb : (opsAt strict fuel).concat (comps.map (fun c => c.circ)) = .ok combined) {ins : List ℕ}
    (ht : List.Forall₂ (IsTarget comps) conns ins) (hdup : ¬ ins.Nodup) :
    connect strict fuel comps conns = .error .valueError ∧ ∀ ρ, connectSLH ρ strict fuel comps conns = .error .valueError := by
  have key : connectOpen strict fuel comps conns = .error .valueError := by
    unfold connectOpen
    rw [hcomb]
    show (do let ports ← conns.mapM (resolve comps); _) = _
    rcases mapM_resolve hlab conns with ⟨ports, e, -, ht'⟩ | ⟨e, -⟩
    · have : ports.map Prod.snd = ins := forall₂_unique (R := IsTarget comps) (fun _ _ _ a b => IsPort.unique a b) ht' ht
      rw [e]
      show (do let m ← mappings combined.cdim ports; _) = _
      rw [mappings_rejects (by rw [this]; exact hdup)]; rfl
    · rw [e]; rfl
  refine ⟨by unfold connect; rw [key]; rfl, fun ρ => by unfold connectSLH; rw [key]; rfl⟩

/-! ### Examples and the refutation -/

/-- Two two-channel components without port labels. -/
def twoSymbols : List (Component ℂ) := [⟨.sym 0 2, 0, none, none⟩, ⟨.sym 1 2, 1, none, none⟩]

/-- the connection from port `o` of component `c1` to port `i` of component `c2`, all given by index -/
def byIndex (c1 o c2 i : ℤ) : Connection := ⟨.index c1, .index o, .index c2, .index i⟩

/-- C46 is false for outputs that are used twice: `connect([A, B], [((0, 0), (1, 0)), ((0, 0), (1, 1))])` is accepted; it returns the
circuit in which `B`'s own second output is fed into `B`'s first input, as if the first connection had been `((1, 1), (1, 0))`. -/
theorem C46_refuted_output_twice :
    ∃ c : Circ ℂ, connect false 20 twoSymbols [byIndex 0 0 1 0, byIndex 0 0 1 1] = .ok c ∧
      connect false 20 twoSymbols [byIndex 1 1 1 0, byIndex 0 0 1 1] = .ok c ∧
      List.Forall₂ (IsSource twoSymbols) [byIndex 0 0 1 0, byIndex 0 0 1 1] [0, 0] := by
  refine ⟨((connect false 20 twoSymbols [byIndex 0 0 1 0, byIndex 0 0 1 1]).toOption).getD .zero, by kernel_rfl, by kernel_rfl, ?_⟩
  have : IsSource twoSymbols (byIndex 0 0 1 0) 0 := ⟨0, 0, _, rfl, rfl, Nat.succ_pos _, rfl, rfl⟩
  exact .cons this (.cons this .nil)

/-- The documented example: a beamsplitter `BS` (symbol 2) with port labels, between `A` and `B`. The hypotheses of the theorems above
are met, and `connect` returns the documented circuit. -/
def documented : List (Component ℂ) :=
  [⟨.sym 0 2, 0, none, none⟩, ⟨.sym 1 2, 1, none, none⟩, ⟨.sym 2 2, 2, some [10, 11], some [20, 21]⟩]

/-- `((A, 0), (BS, 'in')), ((BS, 'tr'), (B, 0)), ((A, 1), (B, 1))` -/
def documentedConnections : List Connection :=
  [⟨.object 0, .index 0, .object 2, .label 10⟩, ⟨.object 2, .label 20, .object 1, .index 0⟩, ⟨.object 0, .index 1, .object 1, .index 1⟩]

example : connect false 20 documented documentedConnections =
    .ok (.series [.concat [.sym 1 2, .id1], .perm [0, 2, 1], .concat [.sym 2 2, .id1], .perm [0, 2, 1], .concat [.sym 0 2, .id1]]) := by
  kernel_rfl

example : Labelled documented := by
  intro d hd
  simp only [documented, List.mem_cons, List.not_mem_nil, or_false] at hd
  rcases hd with rfl | rfl | rfl <;> refine ⟨fun l h => ?_, fun l h => ?_⟩ <;> first | (injection h with h; subst h; rfl) | cases h

example (ρ : Valuation ℂ) : List.Forall₂ (ComponentOf ρ 20) documented [ρ.val 0 2, ρ.val 1 2, ρ.val 2 2] :=
  .cons ⟨.sym 0 2, Nat.succ_pos _, trivial, rfl, rfl⟩ (.cons ⟨.sym 1 2, Nat.succ_pos _, trivial, rfl, rfl⟩
    (.cons ⟨.sym 2 2, Nat.succ_pos _, trivial, rfl, rfl⟩ .nil))

end QNET.Circuit
