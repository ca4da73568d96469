import Mathlib.Logic.Function.Basic
import Mathlib.Data.List.Basic
import Mathlib.Tactic.Common

/-!
# `init_printing` and `configure_printing` (C74)

Model of `/repo/src/qnet/printing/__init__.py` lines 46-290 and 293-345. Objects whose attributes are changed: the SymPy printer base class (`_global_settings`), `QnetBasePrinter` (`_allow_caching`), the
print functions `ascii`, `unicode`, `latex` (`_printer_cls`, `printer`), the printer classes (`sympy_printer_cls`) and `Expression` (`__str__`, `__repr__`, `_repr_latex_`).

Simplifications: classes, formats, settings and their values are numbers. A printer is represented by what determines its output: its class, its SymPy printer class, the settings
given to it and the global settings at the time of its creation (its cache only repeats earlier output of the same printer). `Expression._repr_latex_` is always a call of `latex`. `_PRINT_FUNC['tree']` is assigned
by every call before it is used and is not part of the state. What SymPy's own `init_printing` does is one number (`display`).
-/

namespace QNET.Config

abbrev Settings := ℕ → Option ℕ

/-- `set_global_settings`: later values replace earlier ones -/
def Settings.update (g : Settings) (l : List (ℕ × ℕ)) : Settings := l.foldl (fun g kv => Function.update g kv.1 (some kv.2)) g

/-- the print functions with a printer, in the order of `print_map` (lines 176-182) -/
inductive Fn where
  | ascii | unicode | latex
  deriving DecidableEq, Repr

/-- a printer instance -/
structure Inst where
  cls : ℕ
  sympy : ℕ
  own : List (ℕ × ℕ)
  glob : Settings

/-- the formats of `str_format` and `repr_format`: the keys of `_PRINT_FUNC` (lines 617-626); `tex` is `latex` -/
inductive Fmt where
  | fn (f : Fn)
  | srepr | indsrepr
  | tree (unicode : Bool)
  deriving DecidableEq, Repr

/-- attributes -/
inductive Key where
  | glob
  | caching
  | pcls (f : Fn)
  | printer (f : Fn)
  | scls (c : ℕ)
  | str
  | repr
  deriving DecidableEq, Repr

inductive Value where
  | settings (g : Settings)
  | bool (b : Bool)
  | cls (c : ℕ)
  | inst (i : Inst)
  | fmt (f : Fmt)
  /-- the methods of `Expression` before the first `init_printing` (`abstract_algebra.py` lines 375-385): they call `init_printing()` -/
  | initial

/-- the state: the attributes that exist, and SymPy's own printing -/
structure State where
  attr : Key → Option Value
  display : ℕ

inductive Err where
  | valueError | typeError
  deriving DecidableEq, Repr

/-- keyword arguments of `init_printing`: `cls`, `scls` are the printer classes at the given addresses (`none`: it does not exist or is no printer), `own` the settings of each printer from an INI
file (`none`: not accepted by the printer), `strFormat`/`reprFormat`: `none` if not given, `some none` if unknown -/
structure Opts where
  reset : Bool := false
  initSympy : Bool := true
  display : ℕ := 0
  settings : List (ℕ × ℕ) := []
  caching : Bool := true
  cls : Fn → Option ℕ
  scls : Fn → Option ℕ
  own : Fn → Option (List (ℕ × ℕ)) := fun _ => some []
  strFormat : Option (Option Fmt) := none
  reprFormat : Option (Option Fmt) := none
  hasUnicode : Bool := false

/-- what `_init_printing` remembers: attributes and their values, in the order of the assignments to the dictionary -/
abbrev Freeze := List (Key × Value)

def State.set (s : State) (k : Key) (x : Value) : State := { s with attr := Function.update s.attr k (some x) }

/-- the attribute and its value, if it exists -/
def State.frozen (s : State) (k : Key) : Freeze :=
  match s.attr k with
  | some x => [(k, x)]
  | none => []

/-- the attribute `_printer_cls` of a print function -/
def State.clsOf (s : State) (f : Fn) : Option ℕ :=
  match s.attr (.pcls f) with
  | some (.cls c) => some c
  | _ => none

def State.globOf (s : State) : Settings :=
  match s.attr .glob with
  | some (.settings g) => g
  | _ => fun _ => none

/-- lines 192-198: remember the attributes of one print function; `freeze[print_func._printer_cls]['sympy_printer_cls']` refers to the class before the change -/
def freezeFn (s : State) (f : Fn) : Freeze :=
  (match s.clsOf f with
    | some c => s.frozen (.pcls f) ++ s.frozen (.scls c)
    | none => []) ++ s.frozen (.printer f)

/-- lines 200-208: set up one print function -/
def setupFn (o : Opts) (s : State) (f : Fn) : Except Err Unit × State :=
  match o.cls f with
  | none => (.error .valueError, s)
  | some c =>
    let s := s.set (.pcls f) (.cls c)
    match o.scls f with
    | none => (.error .valueError, s)
    | some sc =>
      let s := s.set (.scls c) (.cls sc)
      match o.own f with
      | none => (.error .typeError, s)
      | some own => (.ok (), s.set (.printer f) (.inst ⟨c, sc, own, s.globOf⟩))

/-- the loop over the print functions (lines 184-208) -/
def setupAll (o : Opts) : List Fn → State → Except Err Freeze × State
  | [], s => (.ok [], s)
  | f :: fs, s =>
    match setupFn o s f with
    | (.error e, s') => (.error e, s')
    | (.ok _, s') =>
      match setupAll o fs s' with
      | (.error e, s'') => (.error e, s'')
      | (.ok fr, s'') => (.ok (freezeFn s f ++ fr), s'')

/-- lines 219-240: a format given by the user, or `unicode`/`ascii` -/
def pickFormat (given : Option (Option Fmt)) (hasUnicode : Bool) : Option Fmt :=
  match given with
  | none => some (.fn (if hasUnicode then .unicode else .ascii))
  | some f => f

/-- `init_printing` with `_freeze=True` (lines 107-139, 142-250) -/
def init (o : Opts) (s : State) : Except Err Freeze × State :=
  let s := if o.reset then s.set .glob (.settings fun _ => none) else s
  let s := if o.initSympy then { s with display := o.display } else s
  let fr1 := [(Key.glob, Value.settings s.globOf)]
  let s1 := s.set .glob (.settings (s.globOf.update o.settings))
  let fr2 := s1.frozen .caching
  let s2 := s1.set .caching (.bool o.caching)
  match setupAll o [.ascii, .unicode, .latex] s2 with
  | (.error e, s') => (.error e, s')
  | (.ok fr3, s3) =>
    let uni := o.hasUnicode || (o.reprFormat == some (some (.fn .unicode)))
    match pickFormat o.strFormat uni with
    | none => (.error .valueError, s3)
    | some f =>
      match pickFormat o.reprFormat uni with
      | none => (.error .valueError, s3)
      | some g => (.ok (fr1 ++ fr2 ++ fr3 ++ s3.frozen .str ++ s3.frozen .repr), (s3.set .str (.fmt f)).set .repr (.fmt g))

/-- the loop at the end of `configure_printing` (lines 287-290) -/
def restore (fr : Freeze) (s : State) : State := fr.foldl (fun s kv => s.set kv.1 kv.2) s

/-- `ascii`, `unicode`, `latex` called without settings (lines 330-345): the printer that is used, after setting up the default if there is none -/
def ensure (f : Fn) (dflt : ℕ) (s : State) : State :=
  match s.attr (.printer f) with
  | some _ => s
  | none =>
    let s := s.set (.pcls f) (.cls dflt)
    let sc := match s.attr (.scls dflt) with
      | some (.cls c) => c
      | _ => 0
    s.set (.printer f) (.inst ⟨dflt, sc, [], s.globOf⟩)

/-- the printer used by `ascii(expr)` etc. -/
def printerOf (f : Fn) (dflt : ℕ) (s : State) : Option Value := (ensure f dflt s).attr (.printer f)

/-- programs: print something, or do something with a temporary configuration -/
inductive Prog where
  | print (f : Fn)
  | block (o : Opts) (body : List Prog)

mutual
/-- running a program: the printers used, in order, and the final state; an exception of `init_printing` ends the program -/
def run (dflt : Fn → ℕ) : Prog → State → Except Err (List (Option Value)) × State
  | .print f, s => (.ok [printerOf f (dflt f) s], ensure f (dflt f) s)
  | .block o body, s =>
    match init o s with
    | (.error e, s') => (.error e, s')
    | (.ok fr, s') =>
      let r := runs dflt body s'
      (r.1, restore fr r.2)
def runs (dflt : Fn → ℕ) : List Prog → State → Except Err (List (Option Value)) × State
  | [], s => (.ok [], s)
  | p :: ps, s =>
    match run dflt p s with
    | (.error e, s') => (.error e, s')
    | (.ok out, s') =>
      match runs dflt ps s' with
      | (.error e, s'') => (.error e, s'')
      | (.ok out', s'') => (.ok (out ++ out'), s'')
end

/-! ### Specification -/

/-- `init_printing()` has been called: every print function has a printer of its own class -/
structure Ready (s : State) : Prop where
  glob : ∃ g, s.attr .glob = some (.settings g)
  caching : ∃ b, s.attr .caching = some (.bool b)
  str : (s.attr .str).isSome
  repr : (s.attr .repr).isSome
  printer : ∀ f, (s.attr (.printer f)).isSome
  cls : ∀ f, ∃ c, s.attr (.pcls f) = some (.cls c) ∧ (s.attr (.scls c)).isSome
  distinct : ∀ f g c, s.attr (.pcls f) = some (.cls c) → s.attr (.pcls g) = some (.cls c) → f = g

/-- the options keep the printer classes and do not reset, and SymPy is left alone -/
structure Mild (o : Opts) (s : State) : Prop where
  reset : o.reset = false
  sympy : o.initSympy = false ∨ o.display = s.display
  cls : ∀ f c, o.cls f = some c → s.attr (.pcls f) = some (.cls c)

/-! ### Proofs -/

theorem set_attr (s : State) (k k' : Key) (x : Value) : (s.set k x).attr k' = if k' = k then some x else s.attr k' := by
  rw [State.set]
  by_cases h : k' = k
  · subst h; simp
  · simp [h]

@[simp] theorem set_display (s : State) (k : Key) (x : Value) : (s.set k x).display = s.display := rfl

theorem restore_cons (k : Key) (x : Value) (fr : Freeze) (s : State) : restore ((k, x) :: fr) s = restore fr (s.set k x) := rfl

theorem restore_append (fr fr' : Freeze) (s : State) : restore (fr ++ fr') s = restore fr' (restore fr s) := List.foldl_append ..

@[simp] theorem restore_display : ∀ (fr : Freeze) (s : State), (restore fr s).display = s.display
  | [], _ => rfl
  | (k, x) :: fr, s => by rw [restore_cons, restore_display fr]; rfl

/-- restoring values of `s`, for a set of keys that covers everything that changed, gives `s` -/
theorem restore_eq (s : State) : ∀ (fr : Freeze) (s' : State), (∀ kx ∈ fr, s.attr kx.1 = some kx.2) →
    ∀ k, (restore fr s').attr k = s.attr k ∨ ((restore fr s').attr k = s'.attr k ∧ ∀ kx ∈ fr, kx.1 ≠ k)
  | [], s', _, k => .inr ⟨rfl, by simp⟩
  | (k', x) :: fr, s', h, k => by
    rw [restore_cons]
    rcases restore_eq s fr (s'.set k' x) (fun kx hk => h kx (by simp [hk])) k with h1 | ⟨h1, h2⟩
    · exact .inl h1
    · by_cases hk : k = k'
      · subst hk
        left
        rw [h1, set_attr, if_pos rfl, h (k, x) (by simp)]
      · right
        refine ⟨by rw [h1, set_attr, if_neg hk], fun kx hx => ?_⟩
        rcases List.mem_cons.mp hx with rfl | hx
        · exact fun h => hk h.symm
        · exact h2 kx hx

theorem frozen_mem {s : State} {k : Key} {kx : Key × Value} (h : kx ∈ s.frozen k) : kx.1 = k ∧ s.attr k = some kx.2 := by
  rw [State.frozen] at h
  split at h
  · rw [List.mem_singleton] at h
    subst h
    exact ⟨rfl, by assumption⟩
  · simp at h

theorem frozen_of {s : State} {k : Key} {x : Value} (h : s.attr k = some x) : s.frozen k = [(k, x)] := by
  rw [State.frozen, h]

/-- the attributes of one print function and its class -/
def Touches (s : State) (f : Fn) (k : Key) : Prop := k = .pcls f ∨ k = .printer f ∨ ∃ c, s.attr (.pcls f) = some (.cls c) ∧ k = .scls c

/-- what the loop keeps and remembers, from a state that agrees with `s0` on the keys of the functions still to come -/
theorem setupFn_spec {o : Opts} {s s' : State} {f : Fn} {c : ℕ} (hc : o.cls f = some c) (hs : s.attr (.pcls f) = some (.cls c)) (h : setupFn o s f = (.ok (), s')) :
    ∃ i sc, s'.display = s.display ∧ ∀ k, s'.attr k = if k = .printer f then some (.inst i) else if k = .scls c then some (.cls sc) else s.attr k := by
  rw [setupFn, hc] at h
  dsimp only at h
  split at h
  · cases h
  · rename_i sc hsc
    split at h
    · cases h
    · rename_i own hown
      injection h with _ h
      subst h
      refine ⟨⟨c, sc, own, ((s.set (.pcls f) (.cls c)).set (.scls c) (.cls sc)).globOf⟩, sc, rfl, fun k => ?_⟩
      rw [set_attr, set_attr, set_attr]
      split_ifs with h1 h2 h3
      · rfl
      · rfl
      · rw [h3, hs]
      · rfl

theorem setupFn_cls {o : Opts} {s s' : State} {f : Fn} (h : setupFn o s f = (.ok (), s')) : ∃ c, o.cls f = some c := by
  rw [setupFn] at h
  split at h
  · cases h
  · exact ⟨_, by assumption⟩

theorem clsOf_eq {s : State} {f : Fn} {c : ℕ} (h : s.attr (.pcls f) = some (.cls c)) : s.clsOf f = some c := by rw [State.clsOf, h]

theorem setupAll_spec (o : Opts) : ∀ (fs : List Fn) (s s' : State) (fr : Freeze), fs.Nodup →
    (∀ f ∈ fs, (s.attr (.printer f)).isSome ∧ ∃ c, s.attr (.pcls f) = some (.cls c) ∧ (s.attr (.scls c)).isSome) →
    (∀ f g c, s.attr (.pcls f) = some (.cls c) → s.attr (.pcls g) = some (.cls c) → f = g) →
    (∀ f c, o.cls f = some c → s.attr (.pcls f) = some (.cls c)) → setupAll o fs s = (.ok fr, s') →
    s'.display = s.display ∧ (∀ kx ∈ fr, s.attr kx.1 = some kx.2 ∧ ∃ f ∈ fs, Touches s f kx.1) ∧ (∀ k, s'.attr k = s.attr k ∨ ((∃ kx ∈ fr, kx.1 = k) ∧ ∃ f ∈ fs, Touches s f k)) ∧
      ∀ f ∈ fs, ∀ k, Touches s f k → ∃ kx ∈ fr, kx.1 = k
  | [], s, s', fr, _, _, _, _, h => by
    rw [setupAll] at h
    cases h
    exact ⟨rfl, by simp, fun k => .inl rfl, by simp⟩
  | f :: fs, s, s'', fr, hn, hs, hd, ho, h => by
    rw [setupAll] at h
    split at h
    · cases h
    rename_i s' h1
    obtain ⟨c, hc⟩ := setupFn_cls h1
    have hcs := ho f c hc
    split at h
    · cases h
    rename_i fr' s3 h2
    injection h with h h'
    injection h with h
    subst h'
    obtain ⟨i, sc, hdis, hk⟩ := setupFn_spec hc hcs h1
    rw [List.nodup_cons] at hn
    have hp : ∀ g, s'.attr (.pcls g) = s.attr (.pcls g) := fun g => by rw [hk]; simp
    have hne : ∀ g ∈ fs, g ≠ f := fun g hg he => hn.1 (he ▸ hg)
    have hpr : ∀ g ∈ fs, s'.attr (.printer g) = s.attr (.printer g) := fun g hg => by
      rw [hk, if_neg (by simpa using hne g hg), if_neg (by simp)]
    have hsc : ∀ g ∈ fs, ∀ c', s.attr (.pcls g) = some (.cls c') → s'.attr (.scls c') = s.attr (.scls c') := fun g hg c' hg' => by
      rw [hk, if_neg (by simp), if_neg]
      simp only [Key.scls.injEq]
      rintro rfl
      exact hne g hg (hd g f _ hg' hcs)
    have htouch : ∀ g k, Touches s' g k ↔ Touches s g k := fun g k => by simp only [Touches, hp]
    have hsame : ∀ g ∈ fs, ∀ k, Touches s g k → s'.attr k = s.attr k := by
      rintro g hg k (rfl | rfl | ⟨c', h1, rfl⟩)
      · exact hp g
      · exact hpr g hg
      · exact hsc g hg c' h1
    obtain ⟨e1, e2, e3, e4⟩ := setupAll_spec o fs s' s3 fr' hn.2 (fun g hg => by
        obtain ⟨a, c', b, d⟩ := hs g (by simp [hg])
        exact ⟨by rw [hpr g hg]; exact a, c', by rw [hp]; exact b, by rw [hsc g hg c' b]; exact d⟩)
      (fun g g' c' => by rw [hp, hp]; exact hd g g' c') (fun g c' hg => by rw [hp]; exact ho g c' hg) h2
    obtain ⟨a, c', b, d⟩ := hs f (by simp)
    obtain rfl : c = c' := by
      rw [hcs] at b
      simpa using b
    obtain ⟨p, hpv⟩ := Option.isSome_iff_exists.mp a
    obtain ⟨q, hqv⟩ := Option.isSome_iff_exists.mp d
    have hf : freezeFn s f = [(.pcls f, .cls c), (.scls c, q), (.printer f, p)] := by
      rw [freezeFn, clsOf_eq hcs]
      simp only [frozen_of hcs, frozen_of hqv, frozen_of hpv]
      rfl
    subst h
    rw [hf]
    refine ⟨e1.trans hdis, fun kx hkx => ?_, fun k => ?_, fun g hg k hgk => ?_⟩
    · rcases List.mem_append.mp hkx with hkx | hkx
      · simp only [List.mem_cons, List.not_mem_nil, or_false] at hkx
        rcases hkx with rfl | rfl | rfl
        · exact ⟨hcs, f, by simp, .inl rfl⟩
        · exact ⟨hqv, f, by simp, .inr (.inr ⟨c, hcs, rfl⟩)⟩
        · exact ⟨hpv, f, by simp, .inr (.inl rfl)⟩
      · obtain ⟨h1, g, hg, h2⟩ := e2 kx hkx
        rw [htouch] at h2
        exact ⟨by rw [← hsame g hg _ h2]; exact h1, g, by simp [hg], h2⟩
    · rcases e3 k with h1 | ⟨⟨kx, h1, h1'⟩, g, hg, h2⟩
      · rw [h1, hk]
        split_ifs with h3 h4
        · exact .inr ⟨⟨(.printer f, p), by simp, h3.symm⟩, f, by simp, .inr (.inl h3)⟩
        · exact .inr ⟨⟨(.scls c, q), by simp, h4.symm⟩, f, by simp, .inr (.inr ⟨c, hcs, h4⟩)⟩
        · exact .inl rfl
      · exact .inr ⟨⟨kx, by simp [h1], h1'⟩, g, by simp [hg], (htouch g k).mp h2⟩
    · rcases List.mem_cons.mp hg with rfl | hg
      · rcases hgk with rfl | rfl | ⟨c', h1, rfl⟩
        · exact ⟨(.pcls g, .cls c), by simp, rfl⟩
        · exact ⟨(.printer g, p), by simp, rfl⟩
        · rw [hcs] at h1
          cases h1
          exact ⟨(.scls c, q), by simp, rfl⟩
      · obtain ⟨kx, h1, h2⟩ := e4 g hg k ((htouch g k).mpr hgk)
        exact ⟨kx, by simp [h1], h2⟩

/-- the attributes that belong to the printing system -/
def Covered (s : State) (k : Key) : Prop := k = .glob ∨ k = .caching ∨ k = .str ∨ k = .repr ∨ ∃ f, Touches s f k

/-- the attributes `init_printing` changes are remembered with their values before the call -/
theorem init_spec {o : Opts} {s s' : State} {fr : Freeze} (hs : Ready s) (ho : Mild o s) (h : init o s = (.ok fr, s')) :
    s'.display = s.display ∧ (∀ kx ∈ fr, s.attr kx.1 = some kx.2) ∧ (∀ k, s'.attr k = s.attr k ∨ ∃ kx ∈ fr, kx.1 = k) ∧
      ∀ k, Covered s k → ∃ kx ∈ fr, kx.1 = k := by
  obtain ⟨g, hg⟩ := hs.glob
  obtain ⟨b, hb⟩ := hs.caching
  have hdis : (if o.initSympy then { s with display := o.display } else s) = s := by
    split_ifs with h1
    · rcases ho.sympy with h2 | h2
      · rw [h1] at h2; cases h2
      · rw [h2]
    · rfl
  simp only [init, ho.reset, Bool.false_eq_true, if_false, hdis] at h
  have hglob : s.globOf = g := by rw [State.globOf, hg]
  rw [hglob] at h
  generalize hs2 : (s.set .glob (.settings (g.update o.settings))).set .caching (.bool o.caching) = s2 at h
  have h2 : ∀ k, s2.attr k = if k = .caching then some (.bool o.caching) else if k = .glob then some (.settings (g.update o.settings)) else s.attr k := by
    intro k
    rw [← hs2, set_attr, set_attr]
  have h2d : s2.display = s.display := by rw [← hs2]; rfl
  split at h
  · cases h
  rename_i fr3 s3 h3
  have hp : ∀ f, s2.attr (.pcls f) = s.attr (.pcls f) := fun f => by rw [h2]; simp
  have hsc : ∀ c, s2.attr (.scls c) = s.attr (.scls c) := fun f => by rw [h2]; simp
  have hpr : ∀ f, s2.attr (.printer f) = s.attr (.printer f) := fun f => by rw [h2]; simp
  obtain ⟨e1, e2, e3, e4⟩ := setupAll_spec o _ s2 s3 fr3 (by decide) (fun f _ => by
      obtain ⟨c, hc, hc'⟩ := hs.cls f
      exact ⟨by rw [hpr]; exact hs.printer f, c, by rw [hp]; exact hc, by rw [hsc]; exact hc'⟩)
    (fun f f' c => by rw [hp, hp]; exact hs.distinct f f' c) (fun f c hf => by rw [hp]; exact ho.cls f c hf) h3
  have hnt : ∀ f, ¬ Touches s2 f .glob ∧ ¬ Touches s2 f .caching ∧ ¬ Touches s2 f .str ∧ ¬ Touches s2 f .repr := by
    intro f
    simp [Touches]
  have hts : ∀ f k, Touches s2 f k → s2.attr k = s.attr k := by
    rintro f k (rfl | rfl | ⟨c', h1, rfl⟩)
    · exact hp f
    · exact hpr f
    · exact hsc c'
  have hstr : s3.attr .str = s.attr .str := by
    rcases e3 .str with h | ⟨-, f, -, h⟩
    · rw [h, h2]; simp
    · exact absurd h (hnt f).2.2.1
  have hrep : s3.attr .repr = s.attr .repr := by
    rcases e3 .repr with h | ⟨-, f, -, h⟩
    · rw [h, h2]; simp
    · exact absurd h (hnt f).2.2.2
  obtain ⟨x, hx⟩ := Option.isSome_iff_exists.mp hs.str
  obtain ⟨y, hy⟩ := Option.isSome_iff_exists.mp hs.repr
  have hb' : (s.set .glob (.settings (g.update o.settings))).attr .caching = some (.bool b) := by rw [set_attr, if_neg (by simp), hb]
  split at h
  · cases h
  split at h
  · cases h
  injection h with h h'
  injection h with h
  rw [frozen_of hb', frozen_of (hstr.trans hx), frozen_of (hrep.trans hy)] at h
  subst h h'
  refine ⟨e1.trans h2d, fun kx hkx => ?_, fun k => ?_, fun k hk => ?_⟩
  · simp only [List.mem_append, List.mem_singleton] at hkx
    rcases hkx with (((rfl | rfl) | hkx) | rfl) | rfl
    · exact hg
    · exact hb
    · obtain ⟨h1, f, -, h4⟩ := e2 kx hkx
      rw [← hts f _ h4]
      exact h1
    · exact hx
    · exact hy
  · rw [set_attr, set_attr]
    split_ifs with h1 h4
    · exact .inr ⟨(.repr, y), by simp, h1.symm⟩
    · exact .inr ⟨(.str, x), by simp, h4.symm⟩
    · rcases e3 k with h5 | ⟨⟨kx, h5, h6⟩, -⟩
      · rw [h5, h2]
        split_ifs with h7 h8
        · exact .inr ⟨(.caching, .bool b), by simp, h7.symm⟩
        · exact .inr ⟨(.glob, .settings g), by simp, h8.symm⟩
        · exact .inl rfl
      · exact .inr ⟨kx, by simp [h5], h6⟩
  · rcases hk with rfl | rfl | rfl | rfl | ⟨f, hf⟩
    · exact ⟨(.glob, .settings g), by simp, rfl⟩
    · exact ⟨(.caching, .bool b), by simp, rfl⟩
    · exact ⟨(.str, x), by simp, rfl⟩
    · exact ⟨(.repr, y), by simp, rfl⟩
    · obtain ⟨kx, h5, h6⟩ := e4 f (by cases f <;> simp) k (by simpa only [Touches, hp] using hf)
      exact ⟨kx, by simp [h5], h6⟩

theorem State.ext' {s s' : State} (h : ∀ k, s.attr k = s'.attr k) (h' : s.display = s'.display) : s = s' := by
  obtain ⟨a, d⟩ := s
  obtain ⟨a', d'⟩ := s'
  simp only [State.mk.injEq]
  exact ⟨funext h, h'⟩

/-- `s'` comes from `s` by changes inside the printing system that keep the printer classes -/
structure Near (s s' : State) : Prop where
  display : s'.display = s.display
  attr : ∀ k, s'.attr k = s.attr k ∨ Covered s k
  pcls : ∀ f, s'.attr (.pcls f) = s.attr (.pcls f)
  some : ∀ k, (s.attr k).isSome → (s'.attr k).isSome
  glob : ∃ g, s'.attr .glob = Option.some (.settings g)
  caching : ∃ b, s'.attr .caching = Option.some (.bool b)

theorem Near.refl {s : State} (h : Ready s) : Near s s := ⟨rfl, fun _ => .inl rfl, fun _ => rfl, fun _ h => h, h.glob, h.caching⟩

theorem Near.ready {s s' : State} (h : Near s s') (hs : Ready s) : Ready s' where
  glob := h.glob
  caching := h.caching
  str := h.some _ hs.str
  repr := h.some _ hs.repr
  printer f := h.some _ (hs.printer f)
  cls f := by
    obtain ⟨c, h1, h2⟩ := hs.cls f
    exact ⟨c, by rw [h.pcls, h1], h.some _ h2⟩
  distinct f g c := by
    rw [h.pcls, h.pcls]
    exact hs.distinct f g c

theorem Near.covered {s s' : State} (h : Near s s') (k : Key) : Covered s' k ↔ Covered s k := by
  simp only [Covered, Touches, h.pcls]

theorem Near.trans {s s' s'' : State} (h : Near s s') (h' : Near s' s'') : Near s s'' where
  display := h'.display.trans h.display
  attr k := by
    rcases h'.attr k with h1 | h1
    · rcases h.attr k with h2 | h2
      · exact .inl (h1.trans h2)
      · exact .inr h2
    · exact .inr ((h.covered k).mp h1)
  pcls f := (h'.pcls f).trans (h.pcls f)
  some k hk := h'.some k (h.some k hk)
  glob := h'.glob
  caching := h'.caching

theorem Near.set {s s' : State} (h : Near s s') {k : Key} {x : Value} (hk : Covered s k) (h1 : k = .glob → ∃ g, x = .settings g) (h2 : k = .caching → ∃ b, x = .bool b)
    (h3 : ∀ f, k = .pcls f → s.attr k = Option.some x) : Near s (s'.set k x) where
  display := h.display
  attr k' := by
    rw [set_attr]
    split_ifs with hc
    · exact .inr (hc ▸ hk)
    · exact h.attr k'
  pcls f := by
    rw [set_attr]
    split_ifs with hc
    · rw [hc, h3 f hc.symm]
    · exact h.pcls f
  some k' hk' := by
    rw [set_attr]
    split_ifs with hc
    · rfl
    · exact h.some k' hk'
  glob := by
    rw [set_attr]
    split_ifs with hc
    · obtain ⟨g, rfl⟩ := h1 hc.symm
      exact ⟨g, rfl⟩
    · exact h.glob
  caching := by
    rw [set_attr]
    split_ifs with hc
    · obtain ⟨g, rfl⟩ := h2 hc.symm
      exact ⟨g, rfl⟩
    · exact h.caching

theorem setupFn_near {o : Opts} {s0 s : State} {f : Fn} (ho : ∀ f c, o.cls f = some c → s0.attr (.pcls f) = some (.cls c)) (hn : Near s0 s) : Near s0 (setupFn o s f).2 := by
  rw [setupFn]
  split
  · exact hn
  · rename_i c hc
    have h := ho f c hc
    have n1 : Near s0 (s.set (.pcls f) (.cls c)) := hn.set (.inr (.inr (.inr (.inr ⟨f, .inl rfl⟩)))) (by simp) (by simp) fun g hg => by
      rw [h]
    dsimp only
    split
    · exact n1
    · rename_i sc hsc
      have n2 : Near s0 ((s.set (.pcls f) (.cls c)).set (.scls c) (.cls sc)) :=
        n1.set (.inr (.inr (.inr (.inr ⟨f, .inr (.inr ⟨c, h, rfl⟩)⟩)))) (by simp) (by simp) (by simp)
      split
      · exact n2
      · exact n2.set (.inr (.inr (.inr (.inr ⟨f, .inr (.inl rfl)⟩)))) (by simp) (by simp) (by simp)

theorem setupAll_near {o : Opts} {s0 : State} (ho : ∀ f c, o.cls f = some c → s0.attr (.pcls f) = some (.cls c)) : ∀ (fs : List Fn) (s : State), Near s0 s → Near s0 (setupAll o fs s).2
  | [], s, hn => hn
  | f :: fs, s, hn => by
    have h1 := setupFn_near (f := f) ho hn
    rw [setupAll]
    split
    · rename_i s' h
      rw [h] at h1
      exact h1
    · rename_i s' h
      rw [h] at h1
      have h2 := setupAll_near ho fs s' h1
      split
      · rename_i h'
        rw [h'] at h2
        exact h2
      · rename_i h'
        rw [h'] at h2
        exact h2

theorem init_near {o : Opts} {s : State} (hs : Ready s) (ho : Mild o s) : Near s (init o s).2 := by
  have hdis : (if o.initSympy then { s with display := o.display } else s) = s := by
    split_ifs with h1
    · rcases ho.sympy with h2 | h2
      · rw [h1] at h2; cases h2
      · rw [h2]
    · rfl
  simp only [init, ho.reset, Bool.false_eq_true, if_false, hdis]
  have n2 : Near s ((s.set .glob (.settings (s.globOf.update o.settings))).set .caching (.bool o.caching)) :=
    ((Near.refl hs).set (.inl rfl) (fun _ => ⟨_, rfl⟩) (by simp) (by simp)).set (.inr (.inl rfl)) (by simp) (fun _ => ⟨_, rfl⟩) (by simp)
  have n3 := setupAll_near ho.cls [.ascii, .unicode, .latex] _ n2
  split
  · rename_i h
    rw [h] at n3
    exact n3
  · rename_i h
    rw [h] at n3
    split
    · exact n3
    · split
      · exact n3
      · exact (n3.set (.inr (.inr (.inl rfl))) (by simp) (by simp) (by simp)).set (.inr (.inr (.inr (.inl rfl)))) (by simp) (by simp) (by simp)

theorem Mild.near {o : Opts} {s s' : State} (h : Mild o s) (hn : Near s s') : Mild o s' where
  reset := h.reset
  sympy := by rw [hn.display]; exact h.sympy
  cls f c hc := by rw [hn.pcls]; exact h.cls f c hc

mutual
/-- all temporary configurations in the program keep the printer classes and do not reset -/
def Milds (s : State) : Prog → Prop
  | .print _ => True
  | .block o body => Mild o s ∧ MildsAll s body
def MildsAll (s : State) : List Prog → Prop
  | [] => True
  | p :: ps => Milds s p ∧ MildsAll s ps
end

mutual
theorem Milds.near {s s' : State} (hn : Near s s') : ∀ {p : Prog}, Milds s p → Milds s' p
  | .print _, _ => by rw [Milds]; trivial
  | .block o body, h => by
    rw [Milds] at h ⊢
    exact ⟨h.1.near hn, MildsAll.near hn h.2⟩
theorem MildsAll.near {s s' : State} (hn : Near s s') : ∀ {ps : List Prog}, MildsAll s ps → MildsAll s' ps
  | [], _ => by rw [MildsAll]; trivial
  | p :: ps, h => by
    rw [MildsAll] at h ⊢
    exact ⟨Milds.near hn h.1, MildsAll.near hn h.2⟩
end

theorem ensure_ready {s : State} (hs : Ready s) (f : Fn) (d : ℕ) : ensure f d s = s := by
  rw [ensure]
  obtain ⟨x, hx⟩ := Option.isSome_iff_exists.mp (hs.printer f)
  rw [hx]

/-- the end of a block undoes the beginning and whatever happened in between -/
theorem restore_init {o : Opts} {s s' s'' : State} {fr : Freeze} (hs : Ready s) (ho : Mild o s) (h : init o s = (.ok fr, s')) (hn : Near s' s'') : restore fr s'' = s := by
  obtain ⟨h1, h2, h3, h4⟩ := init_spec hs ho h
  have hn' : Near s s'' := by
    have := init_near hs ho
    rw [h] at this
    exact this.trans hn
  refine State.ext' (fun k => ?_) (by rw [restore_display, hn'.display])
  rcases restore_eq s fr s'' h2 k with h | ⟨h, h'⟩
  · exact h
  · rcases hn'.attr k with h5 | h5
    · rw [h, h5]
    · obtain ⟨kx, h6, h7⟩ := h4 k h5
      exact absurd h7 (h' kx h6)

mutual
theorem run_spec (d : Fn → ℕ) : ∀ (p : Prog) (s : State), Ready s → Milds s p → Near s (run d p s).2 ∧ ∀ out, (run d p s).1 = .ok out → (run d p s).2 = s
  | .print f, s, hs, _ => by
    rw [run]
    simp only [ensure_ready hs]
    exact ⟨.refl hs, fun _ _ => trivial⟩
  | .block o body, s, hs, hm => by
    rw [Milds] at hm
    have hn := init_near hs hm.1
    rw [run]
    split
    · rename_i e s' h
      rw [h] at hn
      exact ⟨hn, fun _ h => by cases h⟩
    · rename_i fr s' h
      rw [h] at hn
      have hb := (runs_spec d body s' (hn.ready hs) (MildsAll.near hn hm.2)).1
      have := restore_init hs hm.1 h hb
      dsimp only
      rw [this]
      exact ⟨.refl hs, fun _ _ => rfl⟩
theorem runs_spec (d : Fn → ℕ) : ∀ (ps : List Prog) (s : State), Ready s → MildsAll s ps → Near s (runs d ps s).2 ∧ ∀ out, (runs d ps s).1 = .ok out → (runs d ps s).2 = s
  | [], s, hs, _ => by
    rw [runs]
    exact ⟨.refl hs, fun _ _ => rfl⟩
  | p :: ps, s, hs, hm => by
    rw [MildsAll] at hm
    have h1 := run_spec d p s hs hm.1
    rw [runs]
    split
    · rename_i h
      rw [h] at h1
      exact ⟨h1.1, fun _ h => by cases h⟩
    · rename_i out s' h
      rw [h] at h1
      obtain rfl := h1.2 out rfl
      have h2 := runs_spec d ps s' hs hm.2
      split
      · rename_i h'
        rw [h'] at h2
        exact ⟨h2.1, fun _ h => by cases h⟩
      · rename_i h'
        rw [h'] at h2
        exact ⟨h2.1, fun out _ => h2.2 _ rfl⟩
end

end QNET.Config
