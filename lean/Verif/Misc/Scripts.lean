/-
Model of `licant/scripter.py` and of `include` in `licant/libs.py`.
C65: each library is included once, and including terminates; C66: which script a library name stands for;
C68: executing a script restores the script context; C92: tunnels.
-/
import Verif.Py.Dict
import Verif.Py.Path

set_option autoImplicit false

namespace Licant.Misc.Scripts

open Licant.Py Licant.Py.Path

/-! ### model -/

/-- how a script can end other than by reaching its end: `exit`, an exception, the recursion limit.  (The `RecursionError`
is an exception too and also ends in `exit`; it is kept apart so that theorems can say that it does not happen.) -/
inductive SErr where
  | exit
  | raised
  | recursion
deriving DecidableEq

/-- The text of a script, as far as it concerns the script queue and the libraries: the calls it makes, in order.
What it does between the calls may depend on the directory of the current script (`scriptq.curdir()`) and on the
libraries included so far: `look`.  Simplification: scripts do not catch the `SystemExit` of a nested script, and do not
change files that are read later. -/
inductive Script where
  | done
  | raises
  | exits
  | look (k : Str → Dict String Str → Script)
  | execute (path : Str) (k : Script)
  | executeRec (root pattern : Str) (hide : Option Str) (k : Script)
  | includes (lib : String) (path : Option Str) (tunnel : Option (Str × Str)) (k : Script)

/-- The file system: script texts, existence of paths, the result of `util.find_recursive` (util.py:215-237) and the two
library registries (libs.py:8-9), empty if the file does not exist (libs.py:29-33). -/
structure Files where
  script : Str → Option Script
  exist : Str → Bool
  find : Str → Str → Option Str → List Str
  glibs : Dict String Str
  llibs : Dict String Str

/-- one executed script: its path, and the library it was included for, if any -/
structure Ran where
  lib : Option String
  path : Str
deriving DecidableEq

/-- The global state: scripter.py:9 `stack` (innermost script first), libs.py:13 `included`, the links made by tunnels,
and (a ghost) the list of scripts executed so far. -/
structure SS where
  stack : List Str
  included : Dict String Str
  links : List (Str × Str)
  log : List Ran

/-- a state, and how the execution ended: `none` if it returned -/
abbrev Res := SS × Option SErr

/-- sequencing: nothing runs after an exception or an exit -/
def andThen (r : Res) (f : SS → Res) : Res :=
  match r with
  | (st, none) => f st
  | (st, some e) => (st, some e)

/-- scripter.py:27-31 `last`, `curdir` -/
def SS.curdir (st : SS) : Str := dirname (st.stack.headD [])

/-- libs.py:16-19 `merge_two_dicts` and 26-35 `init`.  The registries are read at the first `include`; they do not change
here. -/
def Files.libs (W : Files) : Dict String Str := Dict.update W.glibs W.llibs

/-- scripter.py:23-25 `execute`, on top of `__execute` -/
def execRel (exec : Option String → Str → SS → Res) (lib : Option String) (path : Str) (st : SS) : Res :=
  exec lib (join st.curdir path) st

/-- libs.py:60-72: what happens before the script of a tunnel is executed if the link is missing.  Directories made on
the way are not recorded. -/
def makeTunnel (W : Files) (lib : String) (t : Str) (st : SS) : Res :=
  if W.exist t ∨ t ∈ st.links.map (·.1) then (st, none)
  else if ¬ W.exist (dirname t) ∧ dirname t = [] then (st, some .raised)
  else match W.libs.get lib with
    | none => (st, some .raised)
    | some p => ({ st with links := st.links ++ [(t, dirname p)] }, none)

/-- libs.py:38-89 `include`; `exec` is `ScriptQueue.__execute` -/
def runInclude (W : Files) (exec : Option String → Str → SS → Res) (lib : String) (path : Option Str)
    (tunnel : Option (Str × Str)) (st : SS) : Res :=
  if st.included.has lib then (st, none)
  else match path with
    | some p => execRel exec (some lib) p { st with included := st.included.set lib p }
    | none => match tunnel with
      | some t => andThen (makeTunnel W lib t.1 st) fun st =>
          execRel exec (some lib) (join t.1 t.2) { st with included := st.included.set lib (join t.1 t.2) }
      | none => match W.libs.get lib with
        | none => (st, some .exit)
        | some p => execRel exec (some lib) p { st with included := st.included.set lib p }

/-- scripter.py:36-37: the loop of `execute_recursive` -/
def execAll (exec : Option String → Str → SS → Res) : List Str → SS → Res
  | [], st => (st, none)
  | f :: fs, st => andThen (exec none f st) (execAll exec fs)

/-- the interpreter running a script, scripter.py:18; `exec` is `ScriptQueue.__execute`.  scripter.py:33-37 is
`execute_recursive`. -/
def runScript (W : Files) (exec : Option String → Str → SS → Res) : Script → SS → Res
  | .done, st => (st, none)
  | .raises, st => (st, some .raised)
  | .exits, st => (st, some .exit)
  | .look k, st => runScript W exec (k st.curdir st.included) st
  | .execute p k, st => andThen (execRel exec none p st) (runScript W exec k)
  | .executeRec r pat hide k, st =>
      andThen (execAll exec (W.find (join st.curdir r) pat hide) st) (runScript W exec k)
  | .includes lib p t k, st => andThen (runInclude W exec lib p t st) (runScript W exec k)

/-- scripter.py:15-16: the script becomes the current one -/
def SS.enter (st : SS) (lib : Option String) (path : Str) : SS :=
  { st with stack := path :: st.stack, log := st.log ++ [⟨lib, path⟩] }

/-- scripter.py:17-21: what `__execute` makes of the end of the script: an exception ends in `exit` (util.py
`error_exception`), the end of the script removes the innermost entry of the stack -/
def leave : Res → Res
  | (st, none) => ({ st with stack := st.stack.tail }, none)
  | (st, some .recursion) => (st, some .recursion)
  | (st, some _) => (st, some .exit)

/-- scripter.py:12-21 `__execute`, with a bound on the nesting of scripts.  A missing file raises inside the `try`.  The
registration of the script as a source (15) is not modelled. -/
def execFile (W : Files) : Nat → Option String → Str → SS → Res
  | 0, lib, path, st => (st.enter lib path, some .recursion)
  | n + 1, lib, path, st =>
    match W.script path with
    | none => (st.enter lib path, some .exit)
    | some prog => leave (runScript W (execFile W n) prog (st.enter lib path))

/-- scripter.py:8-10: the state when the main script `argv0` starts -/
def SS.start (argv0 : Str) : SS := ⟨[argv0], [], [], []⟩

/-- the main script, run by the interpreter itself -/
def runMain (W : Files) (fuel : Nat) (argv0 : Str) (main : Script) : Res :=
  runScript W (execFile W fuel) main (SS.start argv0)

/-! ### specification -/

/-- `Asks W d prog e`: somewhere in its text, the script `prog`, lying in directory `d`, asks for the execution `e`.
Relative paths are relative to `d`.  A library is asked for by its explicit path, by its tunnel, or by the path that
the user's registry, or else the system's, gives it. -/
inductive Asks (W : Files) (d : Str) : Script → Ran → Prop
  | execute {p : Str} {k : Script} : Asks W d (.execute p k) ⟨none, join d p⟩
  | execute' {p : Str} {k : Script} {e : Ran} : Asks W d k e → Asks W d (.execute p k) e
  | recursive {r pat : Str} {hide : Option Str} {k : Script} {f : Str} : f ∈ W.find (join d r) pat hide →
      Asks W d (.executeRec r pat hide k) ⟨none, f⟩
  | recursive' {r pat : Str} {hide : Option Str} {k : Script} {e : Ran} : Asks W d k e →
      Asks W d (.executeRec r pat hide k) e
  | path {lib : String} {p : Str} {t : Option (Str × Str)} {k : Script} :
      Asks W d (.includes lib (some p) t k) ⟨some lib, join d p⟩
  | tunnel {lib : String} {t : Str × Str} {k : Script} :
      Asks W d (.includes lib none (some t) k) ⟨some lib, join d (join t.1 t.2)⟩
  | user {lib : String} {p : Str} {k : Script} : W.llibs.get lib = some p →
      Asks W d (.includes lib none none k) ⟨some lib, join d p⟩
  | system {lib : String} {p : Str} {k : Script} : W.llibs.get lib = none → W.glibs.get lib = some p →
      Asks W d (.includes lib none none k) ⟨some lib, join d p⟩
  | includes' {lib : String} {p : Option Str} {t : Option (Str × Str)} {k : Script} {e : Ran} : Asks W d k e →
      Asks W d (.includes lib p t k) e
  | look {k : Str → Dict String Str → Script} {inc : Dict String Str} {e : Ran} : Asks W d (k d inc) e →
      Asks W d (.look k) e

/-- the libraries whose script has been executed, in order, with repetitions -/
def libsOf (l : List Ran) : List String := l.filterMap (·.lib)

/-! ### lookup -/

theorem update_get (d e : Dict String Str) (hn : e.keys.Nodup) (x : String) :
    (Dict.update d e).get x = (e.get x).or (d.get x) := by
  induction e generalizing d with
  | nil => simp [Dict.update]
  | cons p e ih =>
    obtain ⟨k, v⟩ := p
    simp only [Dict.keys, List.map_cons, List.nodup_cons] at hn
    have := ih (d.set k v) hn.2
    simp only [Dict.update, List.foldl_cons] at this ⊢
    rw [this, Dict.get_set]
    simp only [Dict.get]
    by_cases hk : k = x
    · subst hk
      have : Dict.get e k = none := (Dict.get_eq_none_iff e k).2 hn.1
      simp [this]
    · simp [hk]

/-! ### induction over the text of a script -/

/-- To show `P st r` for the result `r` of a script run in state `st`, it suffices to show it for every single execution
the script asks for. -/
theorem run_induct (W : Files) (hW : W.llibs.keys.Nodup) (exec : Option String → Str → SS → Res) (d : Str)
    (P : SS → Res → Prop) (hrefl : ∀ st e, e ≠ some .recursion → P st (st, e))
    (htrans : ∀ st st' r, P st (st', none) → P st' r → P st r)
    (hdir : ∀ st st', P st (st', none) → st'.curdir = st.curdir) (prog : Script) :
    (∀ path st, st.curdir = d → Asks W d prog ⟨none, path⟩ → P st (exec none path st)) →
    (∀ lib c links st, st.curdir = d → st.included.has lib = false → Asks W d prog ⟨some lib, join d c⟩ →
      P st (exec (some lib) (join d c) { st with included := st.included.set lib c, links := links })) →
    ∀ st, st.curdir = d → P st (runScript W exec prog st) := by
  have hseq : ∀ st r (f : SS → Res), P st r → st.curdir = d → (∀ st', st'.curdir = d → P st' (f st')) →
      P st (andThen r f) := by
    intro st r f h1 hd h2
    obtain ⟨st', e⟩ := r
    cases e with
    | none => exact htrans _ _ _ h1 (h2 st' ((hdir _ _ h1).trans hd))
    | some e => exact h1
  induction prog with
  | done => intro _ _ st _; exact hrefl _ _ (by simp)
  | raises => intro _ _ st _; exact hrefl _ _ (by simp)
  | exits => intro _ _ st _; exact hrefl _ _ (by simp)
  | look k ih =>
    intro he hi st hd
    simp only [runScript]
    rw [hd]
    exact ih d st.included (fun path st h ha => he path st h (.look ha))
      (fun lib c links st h hn ha => hi lib c links st h hn (.look ha)) st hd
  | execute p k ih =>
    intro he hi st hd
    simp only [runScript, execRel]
    refine hseq _ _ _ ?_ hd (ih (fun path st h ha => he path st h (.execute' ha))
      (fun lib c links st h hn ha => hi lib c links st h hn (.execute' ha)))
    exact he _ st hd (hd ▸ .execute)
  | executeRec r pat hide k ih =>
    intro he hi st hd
    simp only [runScript]
    refine hseq _ _ _ ?_ hd (ih (fun path st h ha => he path st h (.recursive' ha))
      (fun lib c links st h hn ha => hi lib c links st h hn (.recursive' ha)))
    rw [hd]
    have : ∀ l, (∀ f ∈ l, f ∈ W.find (join d r) pat hide) → ∀ st, st.curdir = d → P st (execAll exec l st) := by
      intro l
      induction l with
      | nil => intro _ st _; exact hrefl _ _ (by simp)
      | cons f fs ihl =>
        intro hl st hd
        simp only [execAll]
        exact hseq _ _ _ (he f st hd (.recursive (hl f (by simp)))) hd
          (ihl fun g hg => hl g (List.mem_cons_of_mem _ hg))
    exact this _ (fun _ h => h) st hd
  | includes lib p t k ih =>
    intro he hi st hd
    simp only [runScript]
    refine hseq _ _ _ ?_ hd (ih (fun path st h ha => he path st h (.includes' ha))
      (fun lib c links st h hn ha => hi lib c links st h hn (.includes' ha)))
    simp only [runInclude]
    split
    · exact hrefl _ _ (by simp)
    rename_i hn
    have hn : st.included.has lib = false := by simpa using hn
    cases p with
    | some p =>
      simp only [execRel, SS.curdir]
      have := hi lib p st.links st hd hn .path
      simpa only [← hd, SS.curdir] using this
    | none =>
      cases t with
      | some t =>
        simp only []
        have hm : (∃ links, makeTunnel W lib t.1 st = ({ st with links := links }, none)) ∨
            makeTunnel W lib t.1 st = (st, some .raised) := by
          unfold makeTunnel
          split
          · exact .inl ⟨st.links, rfl⟩
          · split
            · exact .inr rfl
            · split
              · exact .inr rfl
              · exact .inl ⟨_, rfl⟩
        rcases hm with ⟨links, hm⟩ | hm
        · simp only [hm, andThen, execRel, SS.curdir]
          have := hi lib (join t.1 t.2) links st hd hn .tunnel
          simpa only [← hd, SS.curdir] using this
        · simp only [hm, andThen]
          exact hrefl _ _ (by simp)
      | none =>
        simp only []
        cases hl : W.libs.get lib with
        | none => exact hrefl _ _ (by simp)
        | some p =>
          simp only [execRel, SS.curdir]
          have ha : Asks W d (.includes lib none none k) ⟨some lib, join d p⟩ := by
            rw [Files.libs, update_get _ _ hW] at hl
            cases hu : W.llibs.get lib with
            | some q =>
              rw [hu] at hl
              simp only [Option.some_or, Option.some.injEq] at hl
              exact .user (hl ▸ hu)
            | none =>
              rw [hu, Option.none_or] at hl
              exact .system hu hl
          have := hi lib p st.links st hd hn ha
          simpa only [← hd, SS.curdir] using this

/-! ### C68 -/

theorem curdir_eq {st st' : SS} (h : st'.stack = st.stack) : st'.curdir = st.curdir := by
  simp only [SS.curdir, h]

theorem execFile_stack (W : Files) (hW : W.llibs.keys.Nodup) (fuel : Nat) (lib : Option String) (path : Str)
    (st st' : SS) (h : execFile W fuel lib path st = (st', none)) : st'.stack = st.stack := by
  induction fuel generalizing lib path st st' with
  | zero => simp [execFile] at h
  | succ n ih =>
    simp only [execFile] at h
    split at h
    · simp at h
    rename_i prog hp
    have key := run_induct W hW (execFile W n) (dirname path)
      (fun st r => r.2 = none → r.1.stack = st.stack) (fun _ _ _ _ => rfl)
      (fun st st' r h1 h2 h => (h2 h).trans (h1 rfl))
      (fun st st' h => curdir_eq (h rfl)) prog
      (fun p st _ _ h => ih none p st _ (Prod.ext rfl h))
      (fun lib c links st _ _ _ h => ih (some lib) _ { st with included := st.included.set lib c, links := links } _ (Prod.ext rfl h))
      (st.enter lib path) (by simp [SS.curdir, SS.enter])
    revert h key
    generalize runScript W (execFile W n) prog (st.enter lib path) = r
    obtain ⟨s, e⟩ := r
    cases e with
    | none =>
      intro h key
      simp only [leave, Prod.mk.injEq, and_true] at h
      subst h
      have := key rfl
      simp only [SS.enter] at this
      simp [this]
    | some e => cases e <;> intro h <;> simp [leave] at h

theorem execFile_stack' (W : Files) (hW : W.llibs.keys.Nodup) (fuel : Nat) (lib : Option String) (path : Str)
    (st : SS) (h : (execFile W fuel lib path st).2 = none) : (execFile W fuel lib path st).1.stack = st.stack :=
  execFile_stack W hW fuel lib path st _ (Prod.ext rfl h)

/-- every execution in `new` was asked for by the script `main` lying at `q0`, or by a script in `new` itself -/
def Origin (W : Files) (q0 : Str) (main : Script) (new : List Ran) : Prop :=
  ∀ e ∈ new, Asks W (dirname q0) main e ∨
    ∃ f ∈ new, ∃ prog, W.script f.path = some prog ∧ Asks W (dirname f.path) prog e

theorem run_origin (W : Files) (hW : W.llibs.keys.Nodup) (n : Nat) (q0 : Str) (main : Script) (st : SS)
    (hd : st.curdir = dirname q0) :
    ∃ new, (runScript W (execFile W n) main st).1.log = st.log ++ new ∧ Origin W q0 main new := by
  have main_of : ∀ n, (∀ lib path st, ∃ new, (execFile W n lib path st).1.log = st.log ++ ⟨lib, path⟩ :: new ∧
      ∀ e ∈ new, ∃ f ∈ (⟨lib, path⟩ :: new : List Ran), ∃ prog, W.script f.path = some prog ∧
        Asks W (dirname f.path) prog e) → ∀ q0 main st, st.curdir = dirname q0 →
      ∃ new, (runScript W (execFile W n) main st).1.log = st.log ++ new ∧ Origin W q0 main new := by
    intro n ih q0 main st hd
    have := run_induct W hW (execFile W n) (dirname q0)
      (fun st r => (r.2 = none → r.1.stack = st.stack) ∧
        ∃ new, r.1.log = st.log ++ new ∧ Origin W q0 main new)
      (fun _ _ _ => ⟨fun _ => rfl, [], by simp, fun e he => by simp at he⟩)
      (fun st st' r h1 h2 => by
        refine ⟨fun h => (h2.1 h).trans (h1.1 rfl), ?_⟩
        obtain ⟨-, n1, e1, o1⟩ := h1
        obtain ⟨-, n2, e2, o2⟩ := h2
        refine ⟨n1 ++ n2, by rw [e2, e1, List.append_assoc], fun e he => ?_⟩
        rcases List.mem_append.1 he with he | he
        · rcases o1 e he with h | ⟨f, hf, h⟩
          · exact .inl h
          · exact .inr ⟨f, List.mem_append_left _ hf, h⟩
        · rcases o2 e he with h | ⟨f, hf, h⟩
          · exact .inl h
          · exact .inr ⟨f, List.mem_append_right _ hf, h⟩)
      (fun st st' h => curdir_eq (h.1 rfl)) main
      (fun p st _ ha => ⟨fun h => execFile_stack' W hW n none p st h, by
        obtain ⟨new, e1, o1⟩ := ih none p st
        refine ⟨_, e1, fun e he => ?_⟩
        rcases List.mem_cons.1 he with rfl | he
        · exact .inl ha
        · exact .inr (o1 e he)⟩)
      (fun lib c links st _ _ ha => ⟨fun h => execFile_stack' W hW n (some lib) _ { st with included := st.included.set lib c, links := links } h, by
        obtain ⟨new, e1, o1⟩ := ih (some lib) (join (dirname q0) c)
          { st with included := st.included.set lib c, links := links }
        refine ⟨_, e1, fun e he => ?_⟩
        rcases List.mem_cons.1 he with rfl | he
        · exact .inl ha
        · exact .inr (o1 e he)⟩) st hd
    exact this.2
  refine main_of n ?_ q0 main st hd
  clear hd st main q0
  induction n with
  | zero => intro lib path st; exact ⟨[], by simp [execFile, SS.enter], by simp⟩
  | succ n ih =>
    intro lib path st
    simp only [execFile]
    split
    · exact ⟨[], by simp [SS.enter], by simp⟩
    rename_i prog hp
    obtain ⟨new, e1, o1⟩ := main_of n ih path prog (st.enter lib path) (by simp [SS.curdir, SS.enter])
    refine ⟨new, ?_, fun e he => ?_⟩
    · have : ∀ r : Res, (leave r).1.log = r.1.log := by
        rintro ⟨s, _ | e⟩
        · rfl
        · cases e <;> rfl
      rw [this, e1]
      simp [SS.enter]
    · rcases o1 e he with h | ⟨f, hf, h⟩
      · exact ⟨⟨lib, path⟩, by simp, prog, hp, h⟩
      · exact ⟨f, List.mem_cons_of_mem _ hf, h⟩

/-- **C68**.  Executing a script: if it returns, the stack of scripts, so also the current script and the current
directory, are those before the call, whatever the nested scripts did.  And in a whole run every script executed was asked
for, with its path resolved against the directory of the asking script, by the main script or by a script executed
(`Asks` resolves every relative path, and answers every question for the current directory, by the directory of the script
that contains the call). -/
theorem C68_context (W : Files) (hW : W.llibs.keys.Nodup) (fuel : Nat) :
    (∀ path st st', execRel (execFile W fuel) none path st = (st', none) →
      st'.stack = st.stack ∧ st'.curdir = st.curdir) ∧
    (∀ lib p t st st', runInclude W (execFile W fuel) lib p t st = (st', none) →
      st'.stack = st.stack ∧ st'.curdir = st.curdir) ∧
    ∀ argv0 main, Origin W argv0 main (runMain W fuel argv0 main).1.log := by
  refine ⟨fun path st st' h => ?_, fun lib p t st st' h => ?_, fun argv0 main => ?_⟩
  · have := execFile_stack W hW fuel _ _ _ _ h
    exact ⟨this, by simp only [SS.curdir, this]⟩
  · have := run_induct W hW (execFile W fuel) st.curdir
      (fun st r => r.2 = none → r.1.stack = st.stack) (fun _ _ _ _ => rfl)
      (fun st st' r h1 h2 h => (h2 h).trans (h1 rfl))
      (fun st st' h => curdir_eq (h rfl)) (.includes lib p t .done)
      (fun p st _ _ h => execFile_stack' W hW fuel none p st h)
      (fun lib c links st _ _ _ h => execFile_stack' W hW fuel (some lib) _ { st with included := st.included.set lib c, links := links } h) st rfl
    simp only [runScript, h, andThen] at this
    have := this trivial
    exact ⟨this, by simp only [SS.curdir, this]⟩
  · obtain ⟨new, e, o⟩ := run_origin W hW fuel argv0 main (SS.start argv0) (by simp [SS.curdir, SS.start])
    rw [runMain, e]
    simpa [SS.start] using o

/-! ### C65 -/

theorem keys_set (d : Dict String Str) (x : String) (v : Str) (h : d.has x = false) :
    (d.set x v).keys = d.keys ++ [x] := by
  induction d with
  | nil => rfl
  | cons p d ih =>
    obtain ⟨k, w⟩ := p
    have hk : k ≠ x := by
      rintro rfl
      simp [Dict.has, Dict.get] at h
    have hh : Dict.has d x = false := by simpa [Dict.has, Dict.get, hk] using h
    simp only [Dict.set, hk, if_false, Dict.keys, List.map_cons, List.cons_append, List.cons.injEq, true_and]
    exact ih hh

theorem leave_log (r : Res) : (leave r).1.log = r.1.log := by
  obtain ⟨s, _ | e⟩ := r
  · rfl
  · cases e <;> rfl

theorem leave_included (r : Res) : (leave r).1.included = r.1.included := by
  obtain ⟨s, _ | e⟩ := r
  · rfl
  · cases e <;> rfl

/-- the libraries executed are the libraries included, in the order of their first inclusion, and each of them once -/
def Tidy (st : SS) : Prop := libsOf st.log = st.included.keys ∧ st.included.keys.Nodup

theorem run_tidy (W : Files) (hW : W.llibs.keys.Nodup) (n : Nat) (prog : Script) (st : SS) (h : Tidy st) :
    Tidy (runScript W (execFile W n) prog st).1 := by
  have main_of : ∀ n, (∀ lib path st, Tidy (st.enter lib path) → Tidy (execFile W n lib path st).1) →
      ∀ prog st, Tidy st → Tidy (runScript W (execFile W n) prog st).1 := by
    intro n ih prog st h
    refine (run_induct W hW (execFile W n) st.curdir
      (fun st r => (r.2 = none → r.1.stack = st.stack) ∧ (Tidy st → Tidy r.1))
      (fun _ _ _ => ⟨fun _ => rfl, fun h => h⟩)
      (fun st st' r h1 h2 => ⟨fun h => (h2.1 h).trans (h1.1 rfl), fun h => h2.2 (h1.2 h)⟩)
      (fun st st' h => curdir_eq (h.1 rfl)) prog
      (fun p st _ _ => ⟨fun h => execFile_stack' W hW n none p st h, fun h => ih _ _ _ ?_⟩)
      (fun lib c links st _ hn _ =>
        ⟨fun h => execFile_stack' W hW n (some lib) _ { st with included := st.included.set lib c, links := links } h, fun h => ih _ _ _ ?_⟩) st rfl).2 h
    · refine ⟨?_, h.2⟩
      have := h.1
      simpa [SS.enter, libsOf] using this
    · have hk := keys_set st.included lib c hn
      have hni : lib ∉ st.included.keys := by
        intro hm
        have := (Dict.has_iff st.included lib).2 hm
        simp [hn] at this
      refine ⟨?_, ?_⟩
      · have := h.1
        simp only [libsOf] at this
        simp only [SS.enter, libsOf, List.filterMap_append, this, hk]
        rfl
      · simp only [SS.enter, hk]
        exact List.nodup_append.2 ⟨h.2, by simp, by
          intro a ha b hb
          simp only [List.mem_singleton] at hb
          rintro rfl
          exact hni (hb ▸ ha)⟩
  refine main_of n ?_ prog st h
  clear h st prog
  induction n with
  | zero => intro lib path st h; exact h
  | succ n ih =>
    intro lib path st h
    simp only [execFile]
    split
    · exact h
    rename_i prog hp
    have := main_of n ih prog _ h
    unfold Tidy at this ⊢
    rwa [leave_log, leave_included]

/-- **C65**, at most once.  In every run, also one that fails or exits in the middle, each library's script is executed at
most once; the libraries executed are exactly those recorded as included, in that order. -/
theorem C65_once (W : Files) (hW : W.llibs.keys.Nodup) (fuel : Nat) (argv0 : Str) (main : Script) :
    let st := (runMain W fuel argv0 main).1
    (∀ lib, (libsOf st.log).count lib ≤ 1) ∧ libsOf st.log = st.included.keys := by
  have := run_tidy W hW fuel main (SS.start argv0) ⟨rfl, by simp [SS.start, Dict.keys]⟩
  refine ⟨fun lib => ?_, this.1⟩
  exact List.nodup_iff_count_le_one.1 (by rw [runMain, this.1]; exact this.2) lib

/-- The scripts themselves terminate: no endless chain of plain `execute` calls (the rank of a script, at most `R`, goes
down along them), and finitely many library names. -/
structure Terminating (W : Files) (rank : Str → Nat) (R : Nat) (L : List String) (q : Str) (prog : Script) : Prop where
  plain : ∀ p, Asks W (dirname q) prog ⟨none, p⟩ → rank p < rank q
  lib : ∀ n p, Asks W (dirname q) prog ⟨some n, p⟩ → n ∈ L
  bound : ∀ p, rank p ≤ R

/-- the libraries of `L` not included yet -/
def left (L : List String) (d : Dict String Str) : Nat := (L.filter fun n => ¬ d.has n).length

theorem left_mono (L : List String) {d d' : Dict String Str} (h : ∀ n, d.has n = true → d'.has n = true) :
    left L d' ≤ left L d := by
  simp only [left]
  induction L with
  | nil => simp
  | cons a L ih =>
    simp only [List.filter_cons]
    by_cases ha : d.has a = true
    · simpa [ha, h a ha] using ih
    · by_cases hb : d'.has a = true
      · simp only [ha, hb] at ih ⊢
        simp only [not_true_eq_false, decide_false, Bool.false_eq_true, if_false, not_false_eq_true, decide_true, if_true,
          List.length_cons]
        omega
      · simpa [ha, hb] using ih

theorem left_set (L : List String) (d : Dict String Str) (n : String) (v : Str) (hn : d.has n = false) (hL : n ∈ L) :
    left L (d.set n v) < left L d := by
  have hset : ∀ m, (d.set n v).has m = (d.has m || decide (n = m)) := by
    intro m
    simp only [Dict.has, Dict.get_set]
    by_cases h : n = m <;> simp [h]
  simp only [left]
  induction L with
  | nil => simp at hL
  | cons a L ih =>
    by_cases ha : n = a
    · subst ha
      have h2 := left_mono L (d := d) (d' := d.set n v) (fun m hm => by simp [hset, hm])
      simp only [left] at h2
      have h1 : (Dict.set d n v).has n = true := by simp [hset]
      simp only [List.filter_cons, h1, hn, not_true_eq_false, decide_false, Bool.false_eq_true, if_false,
        not_false_eq_true, decide_true, if_true, List.length_cons]
      omega
    · have hL' : n ∈ L := by simpa [ha] using hL
      have h3 := ih hL'
      have h1 : (Dict.set d n v).has a = d.has a := by simp [hset, ha]
      simp only [List.filter_cons, h1]
      split
      · simpa using h3
      · exact h3

theorem has_set (d : Dict String Str) (n m : String) (v : Str) (h : d.has m = true) : (d.set n v).has m = true := by
  simp only [Dict.has, Dict.get_set] at h ⊢
  split
  · rfl
  · exact h

theorem run_mono (W : Files) (hW : W.llibs.keys.Nodup) (n : Nat) (prog : Script) (st : SS) (m : String)
    (h : st.included.has m = true) : (runScript W (execFile W n) prog st).1.included.has m = true := by
  have main_of : ∀ n, (∀ lib path st, st.included.has m = true →
      (execFile W n lib path st).1.included.has m = true) →
      ∀ prog st, st.included.has m = true → (runScript W (execFile W n) prog st).1.included.has m = true := by
    intro n ih prog st h
    exact (run_induct W hW (execFile W n) st.curdir
      (fun st r => (r.2 = none → r.1.stack = st.stack) ∧ (st.included.has m = true → r.1.included.has m = true))
      (fun _ _ _ => ⟨fun _ => rfl, fun h => h⟩)
      (fun st st' r h1 h2 => ⟨fun h => (h2.1 h).trans (h1.1 rfl), fun h => h2.2 (h1.2 h)⟩)
      (fun st st' h => curdir_eq (h.1 rfl)) prog
      (fun p st _ _ => ⟨fun h => execFile_stack' W hW n none p st h, fun h => ih _ _ _ h⟩)
      (fun lib c links st _ hn _ =>
        ⟨fun h => execFile_stack' W hW n (some lib) _ { st with included := st.included.set lib c, links := links } h,
          fun h => ih _ _ _ (has_set _ _ _ _ h)⟩) st rfl).2 h
  refine main_of n ?_ prog st h
  clear h st prog
  induction n with
  | zero => intro lib path st h; exact h
  | succ n ih =>
    intro lib path st h
    simp only [execFile]
    split
    · exact h
    rw [leave_included]
    exact main_of n ih _ _ h

theorem execFile_mono (W : Files) (hW : W.llibs.keys.Nodup) (n : Nat) (lib : Option String) (path : Str) (st : SS)
    (m : String) (h : st.included.has m = true) : (execFile W n lib path st).1.included.has m = true := by
  cases n with
  | zero => exact h
  | succ n =>
    simp only [execFile]
    split
    · exact h
    rw [leave_included]
    exact run_mono W hW n _ _ m h

theorem run_terminates (W : Files) (hW : W.llibs.keys.Nodup) (rank : Str → Nat) (R : Nat) (L : List String)
    (hT : ∀ q prog, W.script q = some prog → Terminating W rank R L q prog) (n : Nat) (q : Str) (prog : Script)
    (hq : Terminating W rank R L q prog) (st : SS) (hd : st.curdir = dirname q)
    (hn : left L st.included * (R + 1) + rank q ≤ n) :
    (runScript W (execFile W n) prog st).2 ≠ some .recursion := by
  have main_of : ∀ n, (∀ lib path st, left L st.included * (R + 1) + rank path < n →
        (execFile W n lib path st).2 ≠ some .recursion) →
      ∀ q prog st, Terminating W rank R L q prog → st.curdir = dirname q →
        left L st.included * (R + 1) + rank q ≤ n → (runScript W (execFile W n) prog st).2 ≠ some .recursion := by
    intro n ih q prog st hq hd hn
    refine (run_induct W hW (execFile W n) (dirname q)
      (fun st r => (r.2 = none → r.1.stack = st.stack) ∧ (∀ m, st.included.has m = true → r.1.included.has m = true) ∧
        (left L st.included * (R + 1) + rank q ≤ n → r.2 ≠ some .recursion))
      (fun _ _ h => ⟨fun _ => rfl, fun _ h => h, fun _ => h⟩)
      (fun st st' r h1 h2 => ⟨fun h => (h2.1 h).trans (h1.1 rfl), fun m h => h2.2.1 m (h1.2.1 m h), fun h =>
        h2.2.2 (Nat.le_trans (Nat.add_le_add_right (Nat.mul_le_mul_right _ (left_mono L h1.2.1)) _) h)⟩)
      (fun st st' h => curdir_eq (h.1 rfl)) prog
      (fun p st _ ha => ⟨fun h => execFile_stack' W hW n none p st h, fun m h => execFile_mono W hW n _ _ _ m h,
        fun h => ih _ _ _ ?_⟩)
      (fun lib c links st _ hn ha => ⟨fun h => execFile_stack' W hW n (some lib) _
        { st with included := st.included.set lib c, links := links } h,
        fun m h => execFile_mono W hW n _ _ _ m (has_set _ _ _ _ h), fun h => ih _ _ _ ?_⟩) st hd).2.2 hn
    · have := hq.plain p ha
      omega
    · have h1 := left_set L st.included lib c hn (hq.lib _ _ ha)
      have h2 := hq.bound (join (dirname q) c)
      have h3 : (left L (st.included.set lib c) + 1) * (R + 1) ≤ left L st.included * (R + 1) :=
        Nat.mul_le_mul_right _ h1
      rw [Nat.add_mul, Nat.one_mul] at h3
      show left L (st.included.set lib c) * (R + 1) + rank (join (dirname q) c) < n
      omega
  refine main_of n ?_ q prog st hq hd hn
  clear hn hd st hq prog q
  induction n with
  | zero => intro lib path st h; omega
  | succ n ih =>
    intro lib path st h
    simp only [execFile]
    split
    · simp
    rename_i prog hp
    have := main_of n ih path prog (st.enter lib path) (hT _ _ hp) (by simp [SS.curdir, SS.enter])
      (Nat.le_of_lt_succ h)
    revert this
    generalize runScript W (execFile W n) prog (st.enter lib path) = r
    obtain ⟨s, _ | e⟩ := r
    · simp [leave]
    · cases e <;> simp [leave]

/-- **C65**, termination.  If the scripts terminate apart from `include`, then so does every run, however the libraries
include each other: nested at most `(|L| + 1) * (R + 1)` deep. -/
theorem C65_terminates (W : Files) (hW : W.llibs.keys.Nodup) (rank : Str → Nat) (R : Nat) (L : List String)
    (hT : ∀ q prog, W.script q = some prog → Terminating W rank R L q prog) (argv0 : Str) (main : Script)
    (hm : Terminating W rank R L argv0 main) (fuel : Nat) (hf : (L.length + 1) * (R + 1) ≤ fuel) :
    (runMain W fuel argv0 main).2 ≠ some .recursion := by
  refine run_terminates W hW rank R L hT fuel argv0 main hm _ (by simp [SS.curdir, SS.start]) ?_
  have h1 : left L (SS.start argv0).included ≤ L.length := List.length_filter_le _ _
  have h2 := hm.bound argv0
  have h3 := Nat.mul_le_mul_right (R + 1) h1
  rw [Nat.add_mul, Nat.one_mul] at hf
  omega

/-! ### C66 -/

/-- the path a library name stands for at its first inclusion -/
def chosen (W : Files) (lib : String) (path : Option Str) (tunnel : Option (Str × Str)) : Option Str :=
  match path, tunnel, W.llibs.get lib, W.glibs.get lib with
  | some p, _, _, _ => some p
  | none, some t, _, _ => some (join t.1 t.2)
  | none, none, some p, _ => some p
  | none, none, none, some p => some p
  | none, none, none, none => none

/-- **C66**.  `include(lib)` does nothing if the library is included already (the first inclusion decides).  Otherwise it
records and executes, relative to the directory of the current script: the explicit path; else the tunnel, once its link
exists; else the path in the user's registry; else the one in the system's; and an unknown library ends the program with
nothing executed and nothing recorded.  `exec` is any way to execute a script. -/
theorem C66_precedence (W : Files) (hW : W.llibs.keys.Nodup) (exec : Option String → Str → SS → Res) (lib : String)
    (path : Option Str) (tunnel : Option (Str × Str)) (st : SS) :
    (st.included.has lib = true → runInclude W exec lib path tunnel st = (st, none)) ∧
    (st.included.has lib = false →
      (∀ p, chosen W lib path tunnel = some p → (∀ t, path = none → tunnel = some t → W.exist t.1 = true) →
        runInclude W exec lib path tunnel st =
          exec (some lib) (join st.curdir p) { st with included := st.included.set lib p }) ∧
      (chosen W lib path tunnel = none → runInclude W exec lib path tunnel st = (st, some .exit))) := by
  refine ⟨fun h => by simp [runInclude, h], fun h => ?_⟩
  cases path with
  | some p => simp [runInclude, h, chosen, execRel, SS.curdir]
  | none =>
    cases tunnel with
    | some t =>
      simp only [runInclude, h, chosen]
      refine ⟨fun p hp ht => ?_, by simp⟩
      simp only [Option.some.injEq] at hp
      subst hp
      simp [makeTunnel, ht t trivial rfl, andThen, execRel, SS.curdir]
    | none =>
      simp only [runInclude, h, chosen, Files.libs, update_get _ _ hW]
      cases hu : W.llibs.get lib with
      | some q => simp [execRel, SS.curdir]
      | none =>
        cases hg : W.glibs.get lib with
        | some q => simp [execRel, SS.curdir]
        | none => simp

/-! ### tunnels that do not exist yet -/

/-- A tunnel whose link does not exist yet is made for a registered library: the link points to the directory of the
library's script.  It is made relative to the working directory. -/
theorem C92_partial (W : Files) (hW : W.llibs.keys.Nodup) (exec : Option String → Str → SS → Res) (lib : String)
    (t : Str × Str) (st : SS) (p : Str) (hn : st.included.has lib = false) (hx : W.exist t.1 = false)
    (hl : t.1 ∉ st.links.map (·.1)) (hd : dirname t.1 ≠ []) (hp : chosen W lib none none = some p) :
    runInclude W exec lib none (some t) st =
      exec (some lib) (join st.curdir (join t.1 t.2))
        { st with included := st.included.set lib (join t.1 t.2), links := st.links ++ [(t.1, dirname p)] } := by
  have hg : W.libs.get lib = some p := by
    rw [Files.libs, update_get _ _ hW]
    simp only [chosen] at hp
    cases hu : W.llibs.get lib with
    | some q => rw [hu] at hp; simpa using hp
    | none =>
      rw [hu] at hp
      cases hg : W.glibs.get lib with
      | some q => rw [hg] at hp; simpa using hp
      | none => rw [hg] at hp; simp at hp
  simp [runInclude, hn, makeTunnel, hx, hl, hd, hg, andThen, execRel, SS.curdir]

/-- **C92 is false**, first reason: a tunnel named without a directory cannot be made; `include` raises although the library
is registered. -/
theorem C92_violated (W : Files) (exec : Option String → Str → SS → Res) (lib : String) (t : Str × Str) (st : SS)
    (hn : st.included.has lib = false) (hx : W.exist t.1 = false) (hl : t.1 ∉ st.links.map (·.1))
    (hd : dirname t.1 = []) (he : W.exist [] = false) :
    runInclude W exec lib none (some t) st = (st, some .raised) := by
  simp [runInclude, hn, makeTunnel, hx, hl, hd, he, andThen]

/-- **C92 is false**, second reason: the link is made relative to the working directory, but the script is looked for
relative to the directory of the including script.  If that directory, `d`, is not the working directory, and the tunnel is
given by a relative path, then the script executed is `d/tunnel/script`, although the link made is `tunnel`. -/
theorem C92_violated' (W : Files) (hW : W.llibs.keys.Nodup) (exec : Option String → Str → SS → Res) (lib : String)
    (t : Str × Str) (st : SS) (p : Str) (hn : st.included.has lib = false) (hx : W.exist t.1 = false)
    (hl : t.1 ∉ st.links.map (·.1)) (hd : dirname t.1 ≠ []) (hp : chosen W lib none none = some p)
    (hc : st.curdir ≠ []) (hrel : isabs (join t.1 t.2) = false) :
    ∃ q, q ≠ join t.1 t.2 ∧ runInclude W exec lib none (some t) st =
      exec (some lib) q
        { st with included := st.included.set lib (join t.1 t.2), links := st.links ++ [(t.1, dirname p)] } := by
  refine ⟨_, ?_, C92_partial W hW exec lib t st p hn hx hl hd hp⟩
  generalize join t.1 t.2 = j at hrel
  intro h
  have hj : ¬ j.head? = some '/' := by simpa [isabs] using hrel
  rw [join, if_neg hj] at h
  have := congrArg List.length h
  have hpos := List.length_pos_iff.2 hc
  split at this
  · simp only [List.length_append] at this
    omega
  · simp only [List.length_append, List.length_cons] at this
    omega

/-! ### a concrete run -/

/-- Two libraries that include each other, `a` (system registry) and `b` (user registry, where it also shadows a system
entry); `a` executes a script in a directory beside it. -/
def demo : Files where
  script := fun p =>
    if p = "/l/a.py".toList then some (.includes "b" none none (.execute "sub/x.py".toList .done))
    else if p = "/u/b.py".toList then some (.includes "a" none none (.includes "a" (some "y".toList) none .done))
    else if p = "/l/sub/x.py".toList then some .done
    else none
  exist := fun _ => false
  find := fun _ _ _ => []
  glibs := [("a", "/l/a.py".toList), ("b", "/old/b.py".toList)]
  llibs := [("b", "/u/b.py".toList)]

/-- the main script: includes `a`, then `b` -/
def demoMain : Script := .includes "a" none none (.includes "b" none none .done)

def demoRank (p : Str) : Nat := if p = "/l/a.py".toList then 1 else 0

theorem demo_asks {q : Str} {prog : Script} (h : demo.script q = some prog) {e : Ran}
    (ha : Asks demo (dirname q) prog e) : (e.lib = none → demoRank e.path < demoRank q) ∧
      ∀ n, e.lib = some n → n ∈ ["a", "b"] := by
  simp only [demo] at h
  split at h
  · rename_i hq
    simp only [Option.some.injEq] at h
    subst h hq
    cases ha with
    | user _ => simp
    | system _ _ => simp
    | includes' ha =>
      cases ha with
      | execute => exact ⟨fun _ => by decide, by simp⟩
      | execute' ha => cases ha
  · split at h
    · simp only [Option.some.injEq] at h
      subst h
      cases ha with
      | user _ => simp
      | system _ _ => simp
      | includes' ha =>
        cases ha with
        | path => simp
        | includes' ha => cases ha
    · split at h
      · simp only [Option.some.injEq] at h
        subst h
        cases ha
      · cases h

/-- the assumptions of C65_terminates hold for it -/
theorem demo_terminating : (∀ q prog, demo.script q = some prog → Terminating demo demoRank 1 ["a", "b"] q prog) ∧
    Terminating demo demoRank 1 ["a", "b"] "make.py".toList demoMain := by
  have hb : ∀ p, demoRank p ≤ 1 := by
    intro p
    unfold demoRank
    split <;> omega
  refine ⟨fun q prog h => ⟨fun p ha => (demo_asks h ha).1 rfl, fun n p ha => (demo_asks h ha).2 n rfl, hb⟩, ?_, ?_, hb⟩
  · intro p ha
    cases ha with
    | includes' ha => cases ha with
      | includes' ha => cases ha
  · intro n p ha
    cases ha with
    | user _ => simp
    | system _ _ => simp
    | includes' ha => cases ha with
      | user _ => simp
      | system _ _ => simp
      | includes' ha => cases ha

example : (runMain demo 6 "make.py".toList demoMain).2 ≠ some .recursion :=
  C65_terminates demo (by decide) demoRank 1 ["a", "b"] demo_terminating.1 _ _ demo_terminating.2 6 (by decide)

/-- what it executes: `a`, in it `b` from the user's registry, then the script beside `a`; nothing twice -/
example : (runMain demo 6 "make.py".toList demoMain).2 = none ∧
    (runMain demo 6 "make.py".toList demoMain).1.log =
      [⟨some "a", "/l/a.py".toList⟩, ⟨some "b", "/u/b.py".toList⟩, ⟨none, "/l/sub/x.py".toList⟩] := by
  decide +kernel

/-- tunnels: from a script in another directory, and without a directory -/
example : chosen demo "a" none none = some "/l/a.py".toList ∧ dirname "libs/a".toList ≠ [] ∧
    (SS.start "sub/make.py".toList).curdir ≠ [] ∧ isabs (join "libs/a".toList "a.py".toList) = false ∧
    dirname "a".toList = [] ∧
    (runInclude demo (execFile demo 6) "a" none (some ("a".toList, "a.py".toList)) (SS.start "make.py".toList)).2 =
      some .raised := by
  decide +kernel

end Licant.Misc.Scripts
