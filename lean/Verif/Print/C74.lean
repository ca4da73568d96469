import Verif.Print.Config

/-!
# C74: `configure_printing` is temporary
-/

namespace QNET.Config

/-- A `configure_printing` block leaves the printing system as it was, whatever happens inside it (any nested blocks, also failing ones) and however it is left,
once `init_printing` has been called before, if the configuration is accepted, keeps the printer classes and does not reset. -/
theorem C74_restored_partial (d : Fn → ℕ) (o : Opts) (body : List Prog) (s : State) (hs : Ready s) (ho : Mild o s) (hb : MildsAll s body)
    (hi : ∃ fr s', init o s = (.ok fr, s')) : (run d (.block o body) s).2 = s := by
  obtain ⟨fr, s', h⟩ := hi
  have hn := init_near hs ho
  rw [h] at hn
  rw [run, h]
  exact restore_init hs ho h (runs_spec d body s' (hn.ready hs) (hb.near hn)).1

/-- a program of nested blocks that ends without an exception changes nothing, and prints afterwards as before -/
theorem C74_program_partial (d : Fn → ℕ) (ps : List Prog) (s : State) (hs : Ready s) (hm : MildsAll s ps) (out : List (Option Value)) (h : (runs d ps s).1 = .ok out) :
    (runs d ps s).2 = s ∧ ∀ f, printerOf f (d f) (runs d ps s).2 = printerOf f (d f) s := by
  have := (runs_spec d ps s hs hm).2 out h
  exact ⟨this, fun f => by rw [this]⟩

theorem setupFn_glob {o : Opts} {s s' : State} {f : Fn} (h : setupFn o s f = (.ok (), s')) :
    ∃ c sc own, o.cls f = some c ∧ o.scls f = some sc ∧ o.own f = some own ∧ s'.attr (.pcls f) = some (.cls c) ∧ s'.attr (.printer f) = some (.inst ⟨c, sc, own, s.globOf⟩) ∧
      s'.attr .glob = s.attr .glob ∧ s'.attr .caching = s.attr .caching ∧
      (∀ g, g ≠ f → s'.attr (.pcls g) = s.attr (.pcls g) ∧ s'.attr (.printer g) = s.attr (.printer g)) := by
  rw [setupFn] at h
  split at h
  · cases h
  rename_i c hc
  dsimp only at h
  split at h
  · cases h
  rename_i sc hsc
  split at h
  · cases h
  rename_i own hown
  injection h with _ h
  subst h
  refine ⟨c, sc, own, hc, hsc, hown, ?_, ?_, ?_, ?_, ?_⟩
  · simp [set_attr]
  · simp [set_attr, State.globOf]
  · simp [set_attr]
  · simp [set_attr]
  · intro g hg
    simp [set_attr, hg]

theorem setupAll_glob {o : Opts} : ∀ (fs : List Fn) (s s' : State) (fr : Freeze), fs.Nodup → setupAll o fs s = (.ok fr, s') →
    s'.attr .glob = s.attr .glob ∧ s'.attr .caching = s.attr .caching ∧
    (∀ g, g ∉ fs → s'.attr (.pcls g) = s.attr (.pcls g) ∧ s'.attr (.printer g) = s.attr (.printer g)) ∧
    ∀ f ∈ fs, ∃ c sc own, o.cls f = some c ∧ o.scls f = some sc ∧ o.own f = some own ∧ s'.attr (.pcls f) = some (.cls c) ∧ s'.attr (.printer f) = some (.inst ⟨c, sc, own, s.globOf⟩)
  | [], s, s', fr, _, h => by
    rw [setupAll] at h
    cases h
    exact ⟨rfl, rfl, fun _ _ => ⟨rfl, rfl⟩, by simp⟩
  | f :: fs, s, s'', fr, hn, h => by
    rw [setupAll] at h
    split at h
    · cases h
    rename_i s' h1
    split at h
    · cases h
    rename_i fr' s3 h2
    injection h with h h'
    subst h'
    rw [List.nodup_cons] at hn
    obtain ⟨c, sc, own, a1, a2, a3, a4, a5, a6, a7, a8⟩ := setupFn_glob h1
    obtain ⟨b1, b2, b3, b4⟩ := setupAll_glob fs s' s3 fr' hn.2 h2
    refine ⟨b1.trans a6, b2.trans a7, fun g hg => ?_, fun g hg => ?_⟩
    · rw [List.mem_cons, not_or] at hg
      obtain ⟨x, y⟩ := b3 g hg.2
      obtain ⟨x', y'⟩ := a8 g hg.1
      exact ⟨x.trans x', y.trans y'⟩
    · rcases List.mem_cons.mp hg with rfl | hg
      · obtain ⟨x, y⟩ := b3 g hn.1
        exact ⟨c, sc, own, a1, a2, a3, x.trans a4, y.trans a5⟩
      · obtain ⟨c, sc, own, e1, e2, e3, e4, e5⟩ := b4 g hg
        refine ⟨c, sc, own, e1, e2, e3, e4, ?_⟩
        rw [e5, State.globOf, State.globOf, a6]

/-- the settings that remain in force: those of earlier calls, or none after `reset=True` -/
def before (o : Opts) (s : State) : Settings := if o.reset then fun _ => none else s.globOf

/-- After `init_printing` (in particular inside a block) the printers are those asked for: with the given classes and settings, and with the settings of earlier calls unless `reset` was given. -/
theorem C74_init (o : Opts) (s s' : State) (fr : Freeze) (h : init o s = (.ok fr, s')) :
    s'.attr .glob = some (.settings ((before o s).update o.settings)) ∧ s'.attr .caching = some (.bool o.caching) ∧
    (∀ f, ∃ c sc own, o.cls f = some c ∧ o.scls f = some sc ∧ o.own f = some own ∧ s'.attr (.pcls f) = some (.cls c) ∧
      s'.attr (.printer f) = some (.inst ⟨c, sc, own, (before o s).update o.settings⟩)) ∧
    (∀ f, o.strFormat = some (some f) → s'.attr .str = some (.fmt f)) ∧ ∀ f, o.reprFormat = some (some f) → s'.attr .repr = some (.fmt f) := by
  rw [init] at h
  dsimp only at h
  generalize hs0 : (if o.reset then s.set .glob (.settings fun _ => none) else s) = s0 at h
  have hg0 : s0.globOf = before o s := by
    rw [← hs0, before]
    split_ifs
    · simp [State.globOf, set_attr]
    · rfl
  generalize hs1 : (if o.initSympy then { s0 with display := o.display } else s0) = s1 at h
  have hg1 : s1.globOf = s0.globOf := by
    rw [← hs1]
    split_ifs <;> rfl
  rw [← hg0, ← hg1]
  split at h
  · cases h
  rename_i fr3 s3 h3
  obtain ⟨b1, b2, b3, b4⟩ := setupAll_glob _ _ _ _ (by decide) h3
  split at h
  · cases h
  rename_i f hf
  split at h
  · cases h
  rename_i g hg
  injection h with h h'
  subst h'
  refine ⟨?_, ?_, fun f => ?_, fun f hf' => ?_, fun f hf' => ?_⟩
  · simp [set_attr, b1]
  · simp [set_attr, b2]
  · obtain ⟨c, sc, own, e1, e2, e3, e4, e5⟩ := b4 f (by cases f <;> simp)
    refine ⟨c, sc, own, e1, e2, e3, by simp [set_attr, e4], ?_⟩
    simp [set_attr, e5, State.globOf]
  · rw [hf'] at hf
    cases hf
    simp [set_attr]
  · rw [hf'] at hg
    cases hg
    simp [set_attr]

/-- C74: which format `str(expr)` and `repr(expr)` use afterwards: the one that was asked for; if none was asked for, `unicode` when the terminal supports it or `repr_format` is `unicode`, and
`ascii` otherwise. -/
theorem C74_formats (o : Opts) (s s' : State) (fr : Freeze) (h : init o s = (.ok fr, s')) :
    (∀ f, o.strFormat = some (some f) → s'.attr .str = some (.fmt f)) ∧ (∀ f, o.reprFormat = some (some f) → s'.attr .repr = some (.fmt f)) ∧
    (o.strFormat = none → (o.hasUnicode = true ∨ o.reprFormat = some (some (.fn .unicode))) → s'.attr .str = some (.fmt (.fn .unicode))) ∧
    (o.strFormat = none → o.hasUnicode = false → o.reprFormat ≠ some (some (.fn .unicode)) → s'.attr .str = some (.fmt (.fn .ascii))) ∧
    (o.reprFormat = none → o.hasUnicode = true → s'.attr .repr = some (.fmt (.fn .unicode))) ∧
    (o.reprFormat = none → o.hasUnicode = false → s'.attr .repr = some (.fmt (.fn .ascii))) := by
  simp only [init] at h
  split at h
  · cases h
  split at h
  · cases h
  rename_i f hf
  split at h
  · cases h
  rename_i g hg
  injection h with _ h
  subst h
  have e1 : ∀ t : State, ((t.set .str (.fmt f)).set .repr (.fmt g)).attr .str = some (.fmt f) := fun t => by simp [set_attr]
  have e2 : ∀ t : State, ((t.set .str (.fmt f)).set .repr (.fmt g)).attr .repr = some (.fmt g) := fun t => by simp [set_attr]
  rw [e1, e2]
  refine ⟨fun x hx => ?_, fun x hx => ?_, fun hx hu => ?_, fun hx hu hr => ?_, fun hx hu => ?_, fun hx hu => ?_⟩
  · rw [hx] at hf
    simp only [pickFormat] at hf
    cases hf; rfl
  · rw [hx] at hg
    simp only [pickFormat] at hg
    cases hg; rfl
  · rw [hx] at hf
    have hu' : (o.hasUnicode || (o.reprFormat == some (some (.fn .unicode)))) = true := by
      rcases hu with hu | hu <;> simp [hu]
    rw [hu'] at hf
    simpa [pickFormat] using hf.symm
  · rw [hx, hu] at hf
    have hu' : (o.reprFormat == some (some (.fn .unicode))) = false := by simpa using hr
    rw [hu'] at hf
    simpa [pickFormat] using hf.symm
  · rw [hx, hu] at hg
    simpa [pickFormat] using hg.symm
  · rw [hx, hu] at hg
    simpa [pickFormat] using hg.symm

/-- after `init_printing(reset=True, ...)` nothing depends on what was configured before (except SymPy printer classes of printer classes that are not in use) -/
theorem C74_reset (o : Opts) (hr : o.reset = true) (s t s' t' : State) (fr fr' : Freeze) (h : init o s = (.ok fr, s')) (h' : init o t = (.ok fr', t')) :
    (∀ f, s'.attr (.printer f) = t'.attr (.printer f) ∧ s'.attr (.pcls f) = t'.attr (.pcls f)) ∧ s'.attr .glob = t'.attr .glob ∧ s'.attr .caching = t'.attr .caching := by
  obtain ⟨a1, a2, a3, -⟩ := C74_init o s s' fr h
  obtain ⟨b1, b2, b3, -⟩ := C74_init o t t' fr' h'
  simp only [before, hr, if_true] at a1 a3 b1 b3
  refine ⟨fun f => ?_, by rw [a1, b1], by rw [a2, b2]⟩
  obtain ⟨c, sc, own, e1, e2, e3, e4, e5⟩ := a3 f
  obtain ⟨c', sc', own', e1', e2', e3', e4', e5'⟩ := b3 f
  rw [e1] at e1'
  rw [e2] at e2'
  rw [e3] at e3'
  cases e1'
  cases e2'
  cases e3'
  rw [e4, e5, e4', e5']
  exact ⟨rfl, rfl⟩

/-! ### Examples and refutations -/

def num : Fn → ℕ
  | .ascii => 0
  | .unicode => 1
  | .latex => 2

/-- the default printers: classes 0, 1, 2 with SymPy printers 10, 11, 12 -/
def dflt : Opts where
  cls f := some (num f)
  scls f := some (num f + 10)

/-- the program has just been started -/
def fresh : State where
  attr
    | .glob => some (.settings fun _ => none)
    | .caching => some (.bool true)
    | .scls c => some (.cls (c + 10))
    | .str => some .initial
    | .repr => some .initial
    | _ => none
  display := 0

/-- after `init_printing()` -/
def ready : State := (init dflt fresh).2

/-- the setting number `k` used by a print function -/
def setting (f : Fn) (k : ℕ) (s : State) : Option ℕ :=
  match printerOf f (num f) s with
  | some (.inst i) => i.glob k
  | _ => none

/-- `show_hs_label=False` -/
def tmp : Opts := { dflt with settings := [(7, 0)] }

theorem ready_ready : Ready ready where
  glob := ⟨_, rfl⟩
  caching := ⟨_, rfl⟩
  str := rfl
  repr := rfl
  printer f := by cases f <;> rfl
  cls f := by cases f <;> exact ⟨_, rfl, rfl⟩
  distinct f g c h h' := by
    have hp : ∀ f, ready.attr (.pcls f) = some (.cls (num f)) := fun f => by cases f <;> rfl
    rw [hp, Option.some_inj, Value.cls.injEq] at h h'
    have := h.trans h'.symm
    cases f <;> cases g <;> first | rfl | (simp [num] at this)

theorem tmp_mild : Mild tmp ready where
  reset := rfl
  sympy := .inr rfl
  cls f c h := by
    cases f <;> cases h <;> rfl

/-- the example of the documentation: the hypotheses hold, the setting is used inside the block and not afterwards -/
theorem C74_nonvacuous : Ready ready ∧ Mild tmp ready ∧ (∃ fr s', init tmp ready = (.ok fr, s') ∧ setting .ascii 7 s' = some 0) ∧ setting .ascii 7 ready = none ∧
    setting .ascii 7 (run num (.block tmp [.print .ascii, .block { tmp with settings := [(7, 2)] } [.print .latex], .block { tmp with strFormat := some none } []]) ready).2 = none :=
  ⟨ready_ready, tmp_mild, ⟨_, _, rfl, rfl⟩, rfl, rfl⟩

/-- without a call of `init_printing` before the block, its settings stay in force after it (the example in the documentation of `configure_printing`, as a first program) -/
theorem C74_refuted_first_use : setting .ascii 7 fresh = none ∧ setting .ascii 7 (run num (.block tmp [.print .ascii]) fresh).2 = some 0 := ⟨rfl, rfl⟩

/-- a block whose configuration is rejected changes the settings permanently -/
theorem C74_refuted_error : setting .ascii 7 ready = none ∧ (run num (.block { tmp with strFormat := some none } []) ready).1 = .error .valueError ∧
    setting .ascii 7 (run num (.block { tmp with strFormat := some none } []) ready).2 = some 0 := ⟨rfl, rfl, rfl⟩

/-- a block with `reset=True` loses the settings in force before it -/
theorem C74_refuted_reset : (init tmp ready).2.globOf 7 = some 0 ∧ (run num (.block { dflt with reset := true } []) (init tmp ready).2).2.globOf 7 = none := ⟨rfl, rfl⟩

/-- the SymPy printer of a printer class that is only used inside the block is not restored -/
theorem C74_refuted_class : ready.attr (.scls 9) = some (.cls 19) ∧
    (run num (.block { dflt with cls := fun f => if f = .ascii then some 9 else some (num f) } []) ready).2.attr (.scls 9) = some (.cls 10) := ⟨rfl, rfl⟩

/-- SymPy's own printing is not restored -/
theorem C74_refuted_sympy : ready.display = 0 ∧ (run num (.block { dflt with display := 1 } []) ready).2.display = 1 := ⟨rfl, rfl⟩

end QNET.Config
