/-
Model of the registration functions of licant/make.py: constructors of targets, `source`, `dirkeep`,
`copy`, `makefile`, `fileset` and the methods of `MakeCore`.  Definitions only.
-/
import Verif.Make.Model
import Verif.Py.Path

set_option autoImplicit false

namespace Licant.Make
open Licant.Py Licant.Core

/-- A core with the classes of its targets. -/
structure MReg where
  reg : Reg
  kind : Nat → Kind

/-- what the registration functions see of the outside
* `canon`: `licant.util.canonical_path` (util.py:284-288)
* `ex`: `os.path.exists`
* `home`: `os.path.expanduser`
* `glob`: `glob.glob`
Simplification: these do not change while targets are registered. -/
structure Env where
  canon : String → String
  ex : String → Bool
  home : String → String
  glob : String → List String

/-- `os.path.normpath(os.path.dirname(p))` -/
def parent (p : String) : String := String.ofList (Path.parent p.toList)

/-- core.py:62-73 `Core.add`, keeping track of the class -/
def MReg.add (c : MReg) (ob : Obj) (k : Kind) : MReg :=
  { reg := (Core.add c.reg ob).1
    kind := fun i => if i = c.reg.next then k else c.kind i }

/-- core.py:86-96 `Core.has` -/
def MReg.has (c : MReg) (canon : String → String) (n : String) : MReg × Bool :=
  let r := Core.has canon c.reg n
  ({ c with reg := r.1 }, r.2)

/-- the attributes of a target of make.py that matter to the core (make.py:88-89, 131-135;
core.py:317-320) -/
def makeObj (tgt : String) (deps : List String) : Obj := ⟨tgt, deps, true, [], "makefile"⟩

/-- core.py:230-237, first half of `expand_globs`: patterns are replaced by the files found -/
def globs (E : Env) (deps : List String) : List String :=
  deps.flatMap fun d => if '*' ∈ d.toList then E.glob d else [d]

/-- make.py:121-138 `FileTarget.__init__` with core.py:186-189 and 230-241 (`Target.__init__`,
`expand_globs`).  Returns the default core, the canonical path and the dependencies.  The default core
changes because
* the missing parent directory is registered there by `dirkeep` (make.py:224-235), which constructs a
  `DirectoryTarget` (a `FileTarget`) itself;
* existing dependencies are registered there by `source` (make.py:211-221), which constructs a
  `FileTarget` itself.
The first argument is the remaining recursion depth. -/
def fileInit (E : Env) : Nat → MReg → String → List String → Bool →
    Except Err (MReg × String × List String)
  | 0, _, _, _, _ => .error .recursion
  | fuel + 1, d, tgt, deps, useDirkeep =>
    let tgt := E.canon tgt
    let dir : Except Err (MReg × List String) :=
      if useDirkeep && !E.ex (parent tgt) then
        match fileInit E fuel d (parent tgt) [] (!E.ex (parent (parent tgt))) with
        | .error e => .error e
        | .ok (d, t, ds) => .ok (d.add (makeObj t ds) .dir, deps ++ [parent tgt])
      else .ok (d, deps)
    match dir with
    | .error e => .error e
    | .ok (d, deps) =>
      let ret := globs E deps
      let src : Except Err MReg := ret.foldlM (fun d r =>
        if E.ex r then
          let h := d.has E.canon r
          if h.2 then .ok h.1
          else match fileInit E fuel h.1 r [] true with
            | .error e => .error e
            | .ok (d, t, ds) => .ok (d.add (makeObj t ds) .source)
        else .ok d) d
      match src with
      | .error e => .error e
      | .ok d => .ok (d, tgt, ret)

/-- core.py:238-240, second half of `expand_globs`, for a target that is no `FileTarget`
(`MakeFileTarget`): existing dependencies are registered as sources in the default core. -/
def addSources (E : Env) (fuel : Nat) (d : MReg) (ret : List String) : Except Err MReg :=
  ret.foldlM (fun d r =>
    if E.ex r then
      let h := d.has E.canon r
      if h.2 then .ok h.1
      else match fileInit E fuel h.1 r [] true with
        | .error e => .error e
        | .ok (d, t, ds) => .ok (d.add (makeObj t ds) .source)
    else .ok d) d

/-- make.py:211-221 `source` -/
def sourceG (E : Env) (lim : Nat) (d : MReg) (tgt : String) (deps : List String) : Except Err MReg :=
  let h := d.has E.canon tgt
  if h.2 then .ok h.1
  else match fileInit E lim h.1 tgt deps true with
    | .error e => .error e
    | .ok (d, t, ds) => .ok (d.add (makeObj t ds) .source)

/-- make.py:224-235 `dirkeep` -/
def dirkeepG (E : Env) (lim : Nat) (d : MReg) (dirpath : String) : Except Err MReg :=
  match fileInit E lim d dirpath [] (!E.ex (parent dirpath)) with
  | .error e => .error e
  | .ok (d, t, ds) => .ok (d.add (makeObj t ds) .dir)

/-- The default core and another one. -/
structure World where
  dflt : MReg
  own : MReg

/-- a core passed as the parameter `core`; `false` is the default core -/
def World.addTo (w : World) (core : Bool) (ob : Obj) (k : Kind) : World :=
  if core then { w with own := w.own.add ob k } else { w with dflt := w.dflt.add ob k }

/-- make.py:260-269 `makefile` -/
def makefileG (E : Env) (lim : Nat) (w : World) (tgt : String) (deps : List String) (core : Bool) :
    Except Err World :=
  match fileInit E lim w.dflt tgt deps true with
  | .error e => .error e
  | .ok (d, t, ds) => .ok ({ w with dflt := d }.addTo core (makeObj t ds) .file)

/-- make.py:242-257 `copy` -/
def copyG (E : Env) (lim : Nat) (w : World) (tgt src : String) (adddeps : List String) (core : Bool) :
    Except Err World :=
  let src := E.home src
  let tgt := E.home tgt
  match sourceG E lim w.dflt src [] with
  | .error e => .error e
  | .ok d => makefileG E lim { w with dflt := d } tgt (src :: adddeps) core

/-- make.py:272-275 `fileset` -/
def filesetG (E : Env) (lim : Nat) (w : World) (tgt : String) (targets deps : List String)
    (core : Bool) : Except Err World :=
  let ret := globs E (deps ++ targets)
  match addSources E lim w.dflt ret with
  | .error e => .error e
  | .ok d => .ok ({ w with dflt := d }.addTo core (makeObj tgt ret) .fileset)

/-! ### methods of MakeCore (`own`) -/

/-- construct a `FileTarget` with `use_dirkeep=False` and add it to the core -/
def addFileC (E : Env) (lim : Nat) (w : World) (tgt : String) (deps : List String) (k : Kind) :
    Except Err (World × Nat) :=
  match fileInit E lim w.dflt tgt deps false with
  | .error e => .error e
  | .ok (d, t, ds) => .ok ({ dflt := d, own := w.own.add (makeObj t ds) k }, w.own.reg.next)

/-- make.py:290-299 `MakeCore.makedir` -/
def makedirC (E : Env) (lim : Nat) (w : World) (dirpath : String) (deps : List String) :
    Except Err (World × Nat) :=
  addFileC E lim w dirpath deps .dir

/-- make.py:301-310 `MakeCore.dirkeep`.  The third argument is the remaining recursion depth. -/
def dirkeepC (E : Env) (lim : Nat) : Nat → World → String → Except Err (World × List String)
  | 0, _, _ => .error .recursion
  | fuel + 1, w, path =>
    if E.ex (parent path) = false then
      match dirkeepC E lim fuel w (parent path) with
      | .error e => .error e
      | .ok (w, deps) =>
        let h := w.own.has E.canon (parent path)
        if h.2 then .ok ({ w with own := h.1 }, [parent path])
        else match makedirC E lim { w with own := h.1 } (parent path) deps with
          | .error e => .error e
          | .ok (w, _) => .ok (w, [parent path])
    else .ok (w, [])

/-- make.py:345-360 `MakeCore.source` -/
def sourceC (E : Env) (lim : Nat) (w : World) (src : String) : Except Err (World × Nat) :=
  let h := w.own.has E.canon src
  if h.2 then
    match Core.get E.canon h.1.reg src with
    | .error e => .error e
    | .ok o => .ok ({ w with own := h.1 }, o)
  else addFileC E lim { w with own := h.1 } (E.home src) [] .source

/-- make.py:362-378 `MakeCore.ftarget` and 312-328 `MakeCore.touch` (they register alike) -/
def ftargetC (E : Env) (lim : Nat) (w : World) (tgt : String) (deps : List String) :
    Except Err (World × Nat) :=
  match dirkeepC E lim lim w (E.home tgt) with
  | .error e => .error e
  | .ok (w, dirdeps) => addFileC E lim w (E.home tgt) (deps ++ dirdeps) .file

/-- make.py:330-343 `MakeCore.copy` -/
def copyC (E : Env) (lim : Nat) (w : World) (src dst : String) (deps : List String) :
    Except Err (World × Nat) :=
  match dirkeepC E lim lim w (E.home dst) with
  | .error e => .error e
  | .ok (w, dirdeps) =>
    match sourceC E lim w (E.home src) with
    | .error e => .error e
    | .ok (w, _) => addFileC E lim w (E.home dst) (E.home src :: dirdeps ++ deps) .file

/-- a core with no targets -/
def noReg : MReg := ⟨Reg.empty, fun _ => .other⟩

/-- a target that licant registers for itself: it is no `UpdatableTarget`, depends on nothing, and has no other default
action than `action` -/
def builtin (n : String) : Obj := ⟨n, [], false, [], "action"⟩

/-- licant/__init__.py:3-23: the default core after `import licant`.  Four modules have registered a target for the
commands of theirs: licant/cxx_make.py:321-325, licant/modules.py:189-198, licant/cxx_modules.py:628-638 and
licant/libs.py:112-123. -/
def licantReg : MReg :=
  (((noReg.add (builtin "binutils") .other).add (builtin "m") .other).add (builtin "cxxm") .other).add (builtin "l") .other

/-- the names of the targets that licant registers for itself -/
def licantNames : List String := ["binutils", "m", "cxxm", "l"]

end Licant.Make
