/-
Which actions targets declare and which they have: C113.
-/
import Verif.Misc.Cli

set_option autoImplicit false

namespace Licant.Misc
open Licant.Py Licant.Core

/-! ### Model -/

/-- the classes of targets -/
inductive Cls where
  /-- core.py:174 `Target` -/
  | target
  /-- core.py:304 `UpdatableTarget` -/
  | updatable
  /-- core.py:398 `Routine` -/
  | routine
  /-- make.py:83 `MakeFileTarget` (file sets) -/
  | makefile
  /-- make.py:117 `FileTarget`, make.py:191 `DirectoryTarget` (which redefines methods, but adds none) -/
  | file
deriving DecidableEq

/-- the attribute `__actions__` of the classes: core.py:175, 305-307, 399-400 (where a comma is missing between two texts), make.py:84-85,
118-119 -/
def Cls.declared : Cls → List String
  | .target => ["actlist", "print", "dependies"]
  | .updatable => ["actlist", "print", "dependies"] ++ ["recurse_update", "recurse_update_get_args", "update", "update_if_need"]
  | .routine => ["recurse_update", "recurse_update_get_args", "invoke_routine" ++ "update", "actlist"]
  | .makefile => ["actlist", "print", "dependies"] ++ ["recurse_update", "recurse_update_get_args", "update", "update_if_need"] ++
      ["actlist", "makefile", "clean"]
  | .file => ["actlist", "print", "dependies"] ++ ["recurse_update", "recurse_update_get_args", "update", "update_if_need"] ++
      ["actlist", "makefile", "clean"] ++ ["build", "clr"]

/-- the functions that every object of a class has, as methods or by its constructor: core.py:191-194 (`action`, `update_if`),
206-301, 322-396, 415 (`func`), 418-423, make.py:91-114, 143-185 -/
def Cls.methods : Cls → List String
  | .target => targetMethods
  | .updatable => targetMethods ++ updatableMethods
  | .routine => targetMethods ++ updatableMethods ++ ["func", "invoke_routine"]
  | .makefile => targetMethods ++ updatableMethods ++ ["clean", "makefile", "mtime"]
  | .file => targetMethods ++ updatableMethods ++ ["clean", "makefile", "mtime"] ++
      ["update_info", "is_exist", "exists", "warn_if_not_exist", "clr", "internal_update_if"]
where
  targetMethods := ["action", "update_if", "to_name_if_needed", "evaluate_update_needity", "nullify_update_needity", "trace_mode",
    "dependies", "name", "is_file", "expand_globs", "action_if_need", "get_deplist", "actlist", "print", "hasaction", "invoke"]
  updatableMethods := ["recurse_update_get_args", "update", "recursive_update_needed_request", "invoke_function_or_method",
    "update_if_need", "recurse_update"]

/-- A target object, as far as actions are concerned: its class, the functions given to its constructor by name (core.py:194-195, such
as `build`), the names given as `actions` (core.py:197-198), and the attributes set to `None` afterwards (make.py:219). -/
structure TObj where
  cls : Cls
  given : List String := []
  actions : List String := []
  nulled : List String := []

/-- the attribute `__actions__` of the object, core.py:197-198, 261-262 -/
def TObj.declared (ob : TObj) : List String := ob.cls.declared ++ ob.actions

/-- whether `getattr(self, funcname, None)` is not `None`, core.py:284-288.
Simplification: attributes that are no functions (`tgt`, `deps`, ...) are left out; they are not callable. -/
def TObj.has (ob : TObj) (a : String) : Bool := decide ((a ∈ ob.cls.methods ∨ a ∈ ob.given) ∧ a ∉ ob.nulled)

/-- `source(...)`, make.py:211-221, and `MakeCore.source`, make.py:347-360 -/
def sourceObj : TObj := { cls := .file, given := ["build", "dirkeep"], nulled := ["clr"] }

/-- `routine(...)`, core.py:141-164 -/
def routineObj : TObj := { cls := .routine }

/-- the targets of a program are objects `ob o` -/
def Prog.Has {σ ρ : Type} (P : Prog σ ρ) (ob : Nat → TObj) : Prop :=
  (∀ o, P.actions o = (ob o).declared) ∧ (∀ o a, P.hasattr o a = (ob o).has a) ∧ ∀ o, P.routine o = ((ob o).cls = .routine : Bool)

/-! ### C113 -/

variable {σ ρ : Type}

/-- **C113** is false of the code.  A source file declares the action `clr` and a routine declares an action `invoke_routineupdate`,
but neither has it: asking for it ends the program with `WrongAction`, whatever would be evaluated.  Asking for the actions
`update` or `invoke_routine` of a routine that is the default target ends the program with an error, too, although it has
both. -/
theorem C113_violated (P : Prog σ ρ) (hc : Idempotent P.canon) (hl : P.Lawful) (ob : Nat → TObj) (hP : P.Has ob) (s : σ)
    (t : String) (o : Nat) (hr : Resolves P.canon (P.core s) t o) (he : ∀ s, ∃ s', P.eval s = .ok s') :
    (ob o = sourceObj → "clr" ∈ (ob o).declared ∧ ∀ default, P.dispatch default [t, "clr"] s = .error .wrongAction) ∧
    (ob o = routineObj →
      ("invoke_routineupdate" ∈ (ob o).declared ∧ ((∀ o', ¬ Resolves P.canon (P.core s) "invoke_routineupdate" o') →
        P.dispatch (some t) ["invoke_routineupdate"] s = .error .wrongAction)) ∧
      ∀ a ∈ ["update", "invoke_routine"], (ob o).has a = true ∧ ((∀ o', ¬ Resolves P.canon (P.core s) a o') →
        P.dispatch (some t) [a] s = .error .exit)) := by
  obtain ⟨p1, p2, p3⟩ := hP
  have key : ∀ {a : String} {s' : σ}, P.hasattr o a = false → P.invoke ⟨o, a, []⟩ s' = .error .wrongAction := by
    intro a s' h
    obtain ⟨s1, h1⟩ := he s'
    simp only [Prog.invoke, h1, h, bind, Except.bind, Bool.false_eq_true, if_false]
  constructor
  · intro e
    have hd : "clr" ∈ (ob o).declared := by rw [e]; decide
    refine ⟨hd, fun default => ?_⟩
    have hrt : P.routine o = false := by rw [p3, e]; rfl
    obtain ⟨s', _, _, h⟩ := (C62_dispatch P hc hl default [t, "clr"] s).1 ⟨o, "clr", []⟩
      (.action hr hrt (by rw [p1]; exact hd)) (Or.inl rfl)
    rw [h]
    exact key (by rw [p2, e]; decide)
  · intro e
    refine ⟨⟨by rw [e]; decide, fun hn => ?_⟩, fun a ha => ⟨?_, fun hn => ?_⟩⟩
    · obtain ⟨s', _, _, h⟩ := (C62_dispatch P hc hl (some t) ["invoke_routineupdate"] s).1 ⟨o, "invoke_routineupdate", []⟩
        (.defaultAction rfl hn hr (by rw [p1, e]; decide)) (Or.inl rfl)
      rw [h]
      exact key (by rw [p2, e]; decide)
    · rw [e]
      revert a
      decide
    · refine (C62_dispatch P hc hl (some t) [a] s).2 (fun k hk => ?_) P.eval P.act
      cases hk with
      | target h => exact hn _ h
      | routine h => exact hn _ h
      | defaultAction hd _ h ha' =>
        cases hd
        have := get_ok.2 h
        rw [get_ok.2 hr] at this
        cases this
        rw [p1, e] at ha'
        have : ∀ a ∈ ["update", "invoke_routine"], a ∉ routineObj.declared := by decide
        exact this a ha ha'

/-- **C113**, what holds: every other action declared by a target is carried out when asked for, by the name of the target or,
if the target is the default target and the name of the action is not that of a target, alone.  The names given as `actions`
must be functions of the object, and a file target must have been given `build`.
Missing: `clr` of source files, `invoke_routineupdate` of routines (`C113_violated`). -/
theorem C113_partial (P : Prog σ ρ) (hc : Idempotent P.canon) (hl : P.Lawful) (ob : Nat → TObj) (hP : P.Has ob) (s : σ)
    (t : String) (o : Nat) (hr : Resolves P.canon (P.core s) t o) (hcls : (ob o).cls ≠ .routine)
    (hact : ∀ a ∈ (ob o).actions, a ∈ (ob o).cls.methods ∨ a ∈ (ob o).given) (hb : (ob o).cls = .file → "build" ∈ (ob o).given)
    (a : String) (ha : a ∈ (ob o).declared) (hnull : a ∉ (ob o).nulled) :
    (∀ default, ∃ s', SameMeaning P.canon (P.core s) (P.core s') ∧
      P.dispatch default [t, a] s = (P.eval s').bind (P.act ⟨o, a, []⟩)) ∧
    ((∀ o', ¬ Resolves P.canon (P.core s) a o') → ∃ s', SameMeaning P.canon (P.core s) (P.core s') ∧
      P.dispatch (some t) [a] s = (P.eval s').bind (P.act ⟨o, a, []⟩)) := by
  obtain ⟨p1, p2, p3⟩ := hP
  have hrt : P.routine o = false := by rw [p3]; simpa using hcls
  have hh : P.hasattr o a = true := by
    rw [p2]
    unfold TObj.has
    simp only [hnull, not_false_eq_true, and_true, decide_eq_true_eq]
    rcases List.mem_append.1 ha with h | h
    · revert h
      cases e : (ob o).cls
      · intro h; left; clear ha hnull; revert h; revert a; decide
      · intro h; left; clear ha hnull; revert h; revert a; decide
      · exact absurd e hcls
      · intro h; left; clear ha hnull; revert h; revert a; decide
      · intro h
        by_cases hbu : a = "build"
        · exact Or.inr (hbu ▸ hb e)
        · left; revert h hbu; clear hact ha hnull p1 p2 p3 hrt; revert a; decide
    · exact hact a h
  have key : ∀ s', P.invoke ⟨o, a, []⟩ s' = (P.eval s').bind (P.act ⟨o, a, []⟩) := by
    intro s'
    simp only [Prog.invoke, bind, hh, if_true]
  refine ⟨fun default => ?_, fun hn => ?_⟩
  · obtain ⟨s', h1, _, h⟩ := (C62_dispatch P hc hl default [t, a] s).1 ⟨o, a, []⟩ (.action hr hrt (by rw [p1]; exact ha)) (Or.inl rfl)
    exact ⟨s', h1, by rw [h, key]⟩
  · obtain ⟨s', h1, _, h⟩ := (C62_dispatch P hc hl (some t) [a] s).1 ⟨o, a, []⟩ (.defaultAction rfl hn hr (by rw [p1]; exact ha))
      (Or.inl rfl)
    exact ⟨s', h1, by rw [h, key]⟩

/-- **C113**, source files: every declared action but `clr` is carried out, among them `build`. -/
theorem C113_source (P : Prog σ ρ) (hc : Idempotent P.canon) (hl : P.Lawful) (ob : Nat → TObj) (hP : P.Has ob) (s : σ)
    (t : String) (o : Nat) (hr : Resolves P.canon (P.core s) t o) (ho : ob o = sourceObj) (a : String) (ha : a ∈ (ob o).declared)
    (hne : a ≠ "clr") (default : Option String) : ∃ s', SameMeaning P.canon (P.core s) (P.core s') ∧
      P.dispatch default [t, a] s = (P.eval s').bind (P.act ⟨o, a, []⟩) := by
  refine (C113_partial P hc hl ob hP s t o hr (by rw [ho]; decide) (by rw [ho]; decide) (by rw [ho]; decide) a ha ?_).1 default
  rw [ho]
  simpa [sourceObj] using hne

/-- **C113**, routines: every other declared action of a routine that is the default target is carried out when it is asked for alone,
if its name is not that of a target. -/
theorem C113_routine (P : Prog σ ρ) (hc : Idempotent P.canon) (hl : P.Lawful) (ob : Nat → TObj) (hP : P.Has ob) (s : σ)
    (t : String) (o : Nat) (hr : Resolves P.canon (P.core s) t o) (ho : ob o = routineObj) (a : String) (ha : a ∈ (ob o).declared)
    (hne : a ≠ "invoke_routineupdate") (hn : ∀ o', ¬ Resolves P.canon (P.core s) a o') :
    ∃ s', SameMeaning P.canon (P.core s) (P.core s') ∧ P.dispatch (some t) [a] s = (P.eval s').bind (P.act ⟨o, a, []⟩) := by
  obtain ⟨p1, p2, _⟩ := hP
  have hh : P.hasattr o a = true := by
    rw [p2, ho]
    rw [ho] at ha
    clear hn
    revert hne
    revert a
    decide
  obtain ⟨s', h1, _, h⟩ := (C62_dispatch P hc hl (some t) [a] s).1 ⟨o, a, []⟩ (.defaultAction rfl hn hr (by rw [p1]; exact ha)) (Or.inl rfl)
  exact ⟨s', h1, by rw [h]; simp only [Prog.invoke, bind, hh, if_true]⟩

/-! ### an example: a program with a file target, a source file, a routine and a target with an action of its own -/

def actObj : Nat → TObj
  | 0 => { cls := .file, given := ["build"] }
  | 1 => sourceObj
  | 2 => routineObj
  | _ => { cls := .target, given := ["disasm"], actions := ["disasm"] }

def actProg : Prog (Reg × List Call) Unit where
  canon n := n
  core := (·.1)
  setCore s c := (c, s.2)
  routine o := (actObj o).cls = .routine
  actions o := (actObj o).declared
  eval := .ok
  hasattr o a := (actObj o).has a
  act k s := .ok ((s.1, s.2 ++ [k]), ())

def actCore : Reg :=
  (Core.add (Core.add (Core.add (Core.add Reg.empty ⟨"app", [], true, [], "makefile"⟩).1 ⟨"main.c", [], true, [], "makefile"⟩).1
    ⟨"run", [], true, [], "invoke_routine"⟩).1 ⟨"binutils", [], false, [], "action"⟩).1

/-- the hypotheses hold -/
example : Idempotent actProg.canon ∧ actProg.Lawful ∧ actProg.Has actObj ∧ (∀ s, ∃ s', actProg.eval s = .ok s') ∧
    Resolves actProg.canon actCore "main.c" 1 ∧ actObj 1 = sourceObj ∧ Resolves actProg.canon actCore "run" 2 ∧
    actObj 2 = routineObj ∧ (∀ a ∈ ["update", "invoke_routine", "invoke_routineupdate", "clr"], ∀ o', ¬ Resolves actProg.canon actCore a o') ∧
    (∀ o ∈ [0, 1, 3], (actObj o).cls ≠ .routine ∧ (∀ a ∈ (actObj o).declared, a ≠ "clr" → a ∉ (actObj o).nulled) ∧
      (∀ a ∈ (actObj o).actions, a ∈ (actObj o).cls.methods ∨ a ∈ (actObj o).given) ∧
      ((actObj o).cls = .file → "build" ∈ (actObj o).given)) ∧ "disasm" ∈ (actObj 3).declared := by
  refine ⟨fun _ => rfl, fun _ _ => rfl, ⟨fun _ => rfl, fun _ _ => rfl, fun _ => rfl⟩, fun s => ⟨s, rfl⟩, Or.inl rfl, rfl, Or.inl rfl,
    rfl, ?_, by decide, by decide⟩
  intro a ha o'
  have : actCore.targets.get a = none := by revert a; decide
  rintro (h | ⟨_, h⟩)
  · rw [this] at h; cases h
  · change actCore.targets.get a = _ at h
    rw [this] at h; cases h

/-- `licant actlist` with the default target `run`, a routine: the hypotheses of `C113_routine` hold -/
example : actObj 2 = routineObj ∧ "actlist" ∈ (actObj 2).declared ∧ "actlist" ≠ "invoke_routineupdate" ∧
    (∀ o', ¬ Resolves actProg.canon actCore "actlist" o') ∧
    ((actProg.dispatch (some "run") ["actlist"] (actCore, [])).toOption.map (·.1.2)) = some [⟨2, "actlist", []⟩] := by
  refine ⟨rfl, by decide, by decide, ?_, rfl⟩
  rintro o' (h | ⟨_, h⟩)
  · have : actCore.targets.get "actlist" = none := by decide
    rw [this] at h; cases h
  · have : actCore.targets.get "actlist" = none := by decide
    change actCore.targets.get "actlist" = _ at h
    rw [this] at h; cases h

/-- `licant main.c clr` fails, `licant app clr` does not -/
example : actProg.dispatch none ["main.c", "clr"] (actCore, []) = .error .wrongAction ∧
    ((actProg.dispatch none ["app", "clr"] (actCore, [])).toOption.map (·.1.2)) = some [⟨0, "clr", []⟩] :=
  ⟨rfl, rfl⟩

end Licant.Misc
