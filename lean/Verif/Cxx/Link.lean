/-
Model of the registration of the targets of a C++ module: `licant/cxx_modules.py:235-343, 432-563` and the functions of
`licant/cxx_make.py` that register targets.  Definitions only.
-/
import Verif.Make.Register
import Verif.Cxx.Prepare
import Verif.Cxx.Command
import Verif.Cxx.Depends

set_option autoImplicit false

namespace Licant.Cxx
open Licant.Py Licant.Make
open Licant.Modules (Err Val Opts Toolchain Lib)

/-- The default core with the attributes that targets of C++ modules have besides: `force` and the shell command of their
`Executor` (`none` if there is none). -/
structure LReg where
  m : MReg
  force : Nat → Bool
  cmd : Nat → Option String

/-- what registration sees of the outside: the file system (`env`), Python's recursion limit (`lim`), which characters
beyond ASCII are word characters (`uni`) and the texts of existing files (`file`).
Simplification: these do not change while targets are registered. -/
structure Site where
  env : Env
  lim : Nat
  uni : Char → Bool
  file : String → Option (List Char)

/-- exceptions of the core in the vocabulary of the module functions -/
def liftErr : Core.Err → Err
  | .exit => .exit
  | .recursion => .recursion
  | _ => .raised

def liftE {α : Type} : Except Core.Err α → Except Err α
  | .ok a => .ok a
  | .error e => .error (liftErr e)

/-- `cxx_read_depends` (licant/util.py:243-254) of the file `d` -/
def Site.headers (S : Site) (d : String) : Option (List String) :=
  (readDepends S.uni (S.file d)).map (List.map String.ofList)

/-- `core.add(licant.make.FileTarget(tgt=tgt, deps=deps, build=Executor(rule), force=force, ...))` with the default core,
as in licant/cxx_make.py:154-158, 165-174, 181-190, 224-234, 238-273.  The command is formatted when the target is built
(licant/make.py:20-27), with the canonical path for `tgt` (licant/make.py:131); here it is formatted at once, which makes
no difference since the rules and options are fixed. -/
def addFile (S : Site) (L : LReg) (tgt : String) (deps : List String) (force : Bool)
    (cmd : String → Except Err String) : Except Err LReg := do
  let c ← cmd (S.env.canon tgt)
  let (d, t, ds) ← liftE (fileInit S.env S.lim L.m tgt deps true)
  return { m := d.add (makeObj t ds) .file
           force := fun o => if o = d.reg.next then force else L.force o
           cmd := fun o => if o = d.reg.next then some c else L.cmd o }

/-- licant/make.py:211-221; sources have no `force` and no shell command -/
def addSource (S : Site) (L : LReg) (p : String) : Except Err LReg := do
  let m ← liftE (sourceG S.env S.lim L.m p [])
  return { L with m := m }

/-- licant/cxx_modules.py:293-294: `if not default_core().has(s): licant.make.source(s)` -/
def ensureSource (S : Site) (L : LReg) (p : String) : Except Err LReg :=
  let h := L.m.has S.env.canon p
  if h.2 then .ok { L with m := h.1 } else addSource S { L with m := h.1 } p

/-- licant/cxx_modules.py:292-311, one round of the loop -/
def linkObject (S : Site) (opts : CxxOpts) (adddeps : List String) (L : LReg) (u : String × String × String) :
    Except Err LReg := do
  let (s, o, d) := u
  let L ← ensureSource S L s
  let force := (S.headers d).isNone
  let headers := (S.headers d).getD []
  let L ← headers.foldlM (ensureSource S) L
  let L ← addFile S L d ([s] ++ adddeps ++ headers) force fun t => dependCommand s t opts none
  addFile S L o ([s, d] ++ adddeps ++ headers) false fun t => objectCommand s t opts none

/-- licant/cxx_modules.py:290-311 -/
def linkObjects (S : Site) (L : LReg) (srcs objs deps : List String) (opts : CxxOpts) (adddeps : List String) :
    Except Err LReg :=
  (srcs.zip (objs.zip deps)).foldlM (linkObject S opts adddeps) L

/-- licant/cxx_modules.py:314-317 -/
def linkMoc (S : Site) (L : LReg) (mocs srcs : List String) (opts : CxxOpts) (adddeps : List String) : Except Err LReg :=
  (mocs.zip srcs).foldlM (fun L (m, s) => do
    let L ← addSource S L m
    addFile S L s ([m] ++ adddeps) false fun t => mocCommand m t opts) L

/-- licant/cxx_modules.py:320-323 -/
def linkUi (S : Site) (L : LReg) (uis srcs : List String) (opts : CxxOpts) (adddeps : List String) : Except Err LReg :=
  (uis.zip srcs).foldlM (fun L (m, s) => do
    let L ← addSource S L m
    addFile S L s ([m] ++ adddeps) false fun t => uicCommand m t opts) L

/-- licant/cxx_modules.py:235-257 for strings -/
def buildPathsS (srcs : List String) (ext : String) (pre : Option String) (builddir : String) : List String :=
  (buildPaths (srcs.map String.toList) ext.toList (pre.map String.toList) builddir.toList).map String.ofList

/-- licant/cxx_modules.py:260-287: patterns are replaced by the files found -/
def pathsOf (S : Site) (l : List String) : List String :=
  l.flatMap fun s => if '*' ∈ s.toList then S.env.glob s else [s]

/-- licant/make.py:242-257, `copy` with the default core; the command of the target is `cp {src} {tgt}` -/
def addCopy (S : Site) (L : LReg) (src tgt : String) : Except Err LReg := do
  let src := S.env.home src
  let tgt := S.env.home tgt
  let L ← addSource S L src
  addFile S L tgt [src] false fun t => .ok ("cp " ++ src ++ " " ++ t)

/-- licant/make.py:272-275, `fileset` with the default core -/
def addFileset (S : Site) (L : LReg) (tgt : String) (targets : List String) : Except Err LReg := do
  let w ← liftE (filesetG S.env S.lim ⟨L.m, L.m⟩ tgt targets [] false)
  return { L with m := w.dflt }

/-- `pair[i]` where a path is expected -/
def pathAt (pair : Val) (i : Nat) : Except Err String := do
  match ← Val.idx pair i with
  | .str s => return s
  | _ => throw .raised

/-- licant/cxx_modules.py:463-474: the local headers of a module; returns the copies -/
def localHeaders (S : Site) (L : LReg) (builddir : String) (pairs : List Val) : Except Err (LReg × List String) :=
  pairs.foldlM (fun (L, ts) pair => do
    let src ← pathAt pair 1
    let L ← addSource S L src
    let rel ← pathAt pair 0
    let tgt := pjoin (pjoin builddir "__LOCAL_HEADERS__") rel
    let L ← addCopy S L src tgt
    return (L, ts ++ [tgt])) (L, [])

/-- what `modmake` returns besides the options: a target, or the list of paths of object files; `none` in the list is
an element that is no string -/
inductive Built where
  | target (o : Nat)
  | objects (l : List (Option String))
deriving Repr

/-- `" ".join(l)` and passing `l` on as dependencies: fails if there is an element that is no string -/
def allStrings (l : List (Option String)) : Except Err (List String) :=
  l.mapM fun x => match x with
    | some s => .ok s
    | none => .error .raised

/-- licant/cxx_modules.py:463-467: the copies of local headers can be included -/
def headerPath (builddir : String) (pairs : List Val) (loc : Opts) : Except Err Opts :=
  if pairs.length ≠ 0 then do
    let incs ← texts loc "include_paths"
    return loc.set "include_paths" (.list ((incs ++ [builddir ++ "/__LOCAL_HEADERS__/"]).map .str))
  else .ok loc

/-- licant/cxx_modules.py:490-505: the files of `qt_ui`.  Returns the options, which now have the directory of the headers
made from them, the dependencies and the options of the compiler. -/
def makeUi (S : Site) (L : LReg) (builddir : String) (loc : Opts) (adddeps : List String) (opts : CxxOpts) :
    Except Err (LReg × Opts × List String × CxxOpts) := do
  let uis ← texts loc "qt_ui"
  if uis.length ≠ 0 then
    let uidir := pjoin builddir "ui"
    let ui := pathsOf S uis
    let hxx := buildPathsS ui "h" (some "ui_") uidir
    let L ← linkUi S L ui hxx opts adddeps
    let incs ← texts loc "include_paths"
    let loc := if uidir ∈ incs then loc else loc.set "include_paths" (.list ((incs ++ [uidir]).map .str))
    let opts ← cxxOptions S.env.home loc
    return (L, loc, adddeps ++ hxx, opts)
  else return (L, loc, adddeps, opts)

/-- licant/cxx_modules.py:507-516: the files of `qt_moc` become additional sources -/
def makeMoc (S : Site) (L : LReg) (builddir : String) (loc : Opts) (adddeps : List String) (opts : CxxOpts)
    (srcs objs deps : List String) : Except Err (LReg × List String × List String × List String) := do
  let mocs ← texts loc "qt_moc"
  if mocs.length ≠ 0 then
    let moc := pathsOf S mocs
    let cxx := buildPathsS moc "h.cxx" none builddir
    let L ← linkMoc S L moc cxx opts adddeps
    return (L, srcs ++ cxx, objs ++ buildPathsS moc "h.cxx.o" none builddir,
      deps ++ buildPathsS moc "h.cxx.d" none builddir)
  else return (L, srcs, objs, deps)

/-- licant/cxx_modules.py:463-523 for the options `loc`: everything but the submodules and the final target.  Returns the
paths of the objects and the changed options (`include_paths` is extended in place). -/
def makeObjects (S : Site) (L : LReg) (name : String) (loc : Opts) : Except Err (LReg × List String × Opts) := do
  let builddir ← text loc "builddir"
  let pairs ← (given loc "local_headers").iter
  let loc ← headerPath builddir pairs loc
  let (L, copies) ← localHeaders S L builddir pairs
  let L ← addFileset S L (name ++ "__local_headers__") copies
  let depends ← texts loc "depends"
  let adddeps := [name ++ "__local_headers__"] ++ pathsOf S depends
  let srcs := pathsOf S (← texts loc "sources")
  let objs := buildPathsS srcs "o" none builddir
  let deps := buildPathsS srcs "d" none builddir
  let opts ← cxxOptions S.env.home loc
  let (L, loc, adddeps, opts) ← makeUi S L builddir loc adddeps opts
  let (L, srcs, objs, deps) ← makeMoc S L builddir loc adddeps opts srcs objs deps
  let L ← linkObjects S L srcs objs deps opts adddeps
  let extra ← texts loc "objects"
  let L ← extra.foldlM (addSource S) L
  return (L, objs ++ extra, loc)

/-- licant/cxx_modules.py:326-343, 535-543: the final target of a module -/
def finishTarget (S : Site) (L : LReg) (objs : List (Option String)) (loc : Opts) : Except Err (LReg × Built) := do
  let type ← text loc "type"
  if type = "application" ∨ type = "shared_library" ∨ type = "static_library" then
    let opts ← cxxOptions S.env.home loc
    let tgt ← text loc "target"
    let srcs ← allStrings objs
    let rule := if type = "application" then executableCommand
      else if type = "shared_library" then dynlibCommand else statlibCommand
    let L ← addFile S L tgt srcs false fun t => rule t srcs opts
    return (L, .target (L.m.reg.next - 1))
  else if type = "objects" then return (L, .objects objs)
  else throw .exit

/-- licant/cxx_modules.py:436-543, `modmake`; the first argument is the recursion limit.  `submodules_results += modmake(...)`
adds the two members of the returned tuple, a list and the options, neither of which is a string. -/
def modmake (S : Site) (tc : Toolchain) (fuel steps : Nat) (key : Nat → Nat) :
    Nat → Lib × LReg → String → Option String → Opts → Except Err ((Lib × LReg) × Built × Opts)
  | 0, _, _, _, _ => .error .recursion
  | depth + 1, (lib, L), name, impl, base => do
    let (lib, loc) ← finalOpts tc S.env.home fuel steps key lib name impl base
    let (L, objs, loc) ← makeObjects S L name loc
    let subs ← match loc.get "modules" with
      | some v => v.iter
      | none => throw .raised
    let (lib, L, res) ← subs.foldlM (fun (lib, L, res) smod => do
        match smod with
        | .sub n i =>
          let ((lib, L), _, _) ← modmake S tc fuel steps key depth (lib, L) n i loc
          pure (lib, L, res ++ [none, none])
        | _ => throw .raised) (lib, L, ([] : List (Option String)))
    let (L, b) ← finishTarget S L (objs.map some ++ res) loc
    return ((lib, L), b, loc)

/-- licant/cxx_modules.py:432-434, 545-546, `prepare_targets`; `tc` is the default toolchain -/
def prepareTargets (S : Site) (tc : Toolchain) (fuel steps : Nat) (key : Nat → Nat) (lib : Lib) (L : LReg) (name : String)
    (impl : Option String) (kwargs : Opts) : Except Err ((Lib × LReg) × Built × Opts) := do
  let opts ← mkOptions tc kwargs
  modmake S tc fuel steps key S.lim (lib, L) name impl (setDefaults tc opts)

/-- licant/cxx_modules.py:549-569, `task`; `script` is the current script.  The parameter `core` is only passed to
`prepare_targets`, which does not use it, and to `fileset`; here it is the default core.  `default` and `kwargs` are the
other keyword arguments, of which `default` is meant for `module`; `False` if it is missing. -/
def task (S : Site) (tc : Toolchain) (fuel steps : Nat) (key : Nat → Nat) (lib : Lib) (L : LReg) (script name : String)
    (target impl : Option String) (default : Bool) (type : String) (kwargs : Opts) : Except Err ((Lib × LReg) × Built) := do
  if type ≠ "objects" then
    let target := target.getD name
    let lib ← lib.module script (name ++ "__module") impl default
      ([("type", .str type), ("target", .str target)] ++ kwargs)
    let (s, b, _) ← prepareTargets S tc fuel steps key lib L (name ++ "__module") none []
    return (s, b)
  else
    let lib ← lib.module script name impl default ([("type", .str type)] ++ kwargs)
    let ((lib, L), b, _) ← prepareTargets S tc fuel steps key lib L name none []
    match b with
    | .objects l =>
      let ts ← allStrings l
      let L ← addFileset S L name ts
      return ((lib, L), .target (L.m.reg.next - 1))
    | .target _ => throw .raised

end Licant.Cxx
