/-
Model of licant/cache.py and of the target classes and builds of licant/make.py.
Definitions only.
-/
import Verif.Core.Spec
import Verif.Solver.Spec

set_option autoImplicit false

namespace Licant.Make
open Licant.Py Licant.Core

/-! ### files and the file cache -/

/-- A directory entry: time stamp and contents; `data = none` is a directory.  Time stamps
(`st_mtime`, floats) are natural numbers.  Simplification: creating a file does not change the time
stamp of the directory it is in. -/
structure Entry (α : Type) where
  mtime : Nat
  data : Option α

/-- The file system, by canonical path. -/
abbrev FS (α : Type) := String → Option (Entry α)

/-- what a program can read -/
def contents {α : Type} (fs : FS α) : String → Option α := fun p => (fs p).bind (·.data)

/-- cache.py:8-14 `fileinfo` -/
structure Info where
  exist : Bool
  mtime : Nat
  deriving DecidableEq, Repr

/-- cache.py:9-14: the status of a path now; a missing file has time stamp 0. -/
def fileinfo {α : Type} (fs : FS α) (p : String) : Info :=
  match fs p with
  | some e => ⟨true, e.mtime⟩
  | none => ⟨false, 0⟩

/-- cache.py:5-6 `FileCache.cache` -/
abbrev FileCache := Dict String Info

/-- cache.py:16-17 `update_info` -/
def updateInfo {α : Type} (fs : FS α) (cache : FileCache) (p : String) : FileCache :=
  cache.set p (fileinfo fs p)

/-- cache.py:19-28 `get_info` -/
def getInfo {α : Type} (fs : FS α) (cache : FileCache) (p : String) : Info × FileCache :=
  match cache.get p with
  | some i => (i, cache)
  | none => (fileinfo fs p, updateInfo fs cache p)

/-! ### targets -/

/-- The class of a target object:
* `file`: `FileTarget` (make.py:117-188) made by `makefile`, `copy`, `touch`, `ftarget`
* `source`: `FileTarget` made by `source` (211-221, 345-360): `clr` is `None`
* `dir`: `DirectoryTarget` (191-208)
* `fileset`: `MakeFileTarget` made by `fileset` (83-114, 272-275)
* `other`: `Target`, `UpdatableTarget`, `Routine` of core.py -/
inductive Kind where
  | file | source | dir | fileset | other
  deriving DecidableEq, Repr

/-- A registry with the attributes make.py adds to target objects.
* `force` (make.py:137)
* `upd`: the `update_if` of `other` targets (user code)
* `cmd o f`: what the build command of a file target writes to its target when the files have the
  contents `f`
* `parents p`: the proper ancestor directories of `p` -/
structure Proj (α : Type) where
  reg : Reg
  kind : Nat → Kind
  force : Nat → Bool
  upd : Nat → Except Err Bool
  cmd : Nat → (String → Option α) → α
  parents : String → List String

variable {α : Type}

/-- the path of a target -/
abbrev Proj.path (P : Proj α) (o : Nat) : String := (P.reg.obj o).tgt

/-- make.py:102-103 / core.py:227-228 `is_file` -/
def isFile (P : Proj α) (o : Nat) : Bool :=
  match P.kind o with
  | .other => false
  | _ => true

/-- `mtime()`: make.py:143-145 (files and sources), 197-198 (directories: 0), 105-114 (filesets: the
largest `mtime` of the dependencies); other targets have no such method.  `fuel` is the recursion
limit. -/
def mtime (P : Proj α) (canon : String → String) (fs : FS α) :
    (fuel : Nat) → (o : Nat) → FileCache → Except Err (Nat × FileCache)
  | 0, _, _ => .error .recursion
  | fuel + 1, o, cache =>
    match P.kind o with
    | .file | .source =>
      let r := getInfo fs cache (P.path o)
      .ok (r.1.mtime, r.2)
    | .dir => .ok (0, cache)
    | .fileset =>
      (P.reg.obj o).deps.foldlM (fun (p : Nat × FileCache) d => do
        let dtgt ← Core.get canon P.reg d
        let r ← mtime P canon fs fuel dtgt p.2
        .ok (if r.1 > p.1 then r.1 else p.1, r.2)) (0, cache)
    | .other => .error .attribute

/-- make.py:168-172: the loop of `internal_update_if` over `get_deplist()`. -/
def maxDepTime (P : Proj α) (canon : String → String) (fs : FS α) (lim : Nat) (l : List Nat)
    (cache : FileCache) : Except Err (Nat × FileCache) :=
  l.foldlM (fun (p : Nat × FileCache) dep => do
    let r ← mtime P canon fs lim dep p.2
    .ok (if isFile P dep && r.1 > p.1 then r.1 else p.1, r.2)) (0, cache)

/-- `update_if(self)` of each class: make.py:134, 164-177 for files and sources, 192-195 for
directories; core.py:313 (`lambda s: False`) for filesets.  `get_deplist` (core.py:249-253) is
taken without its memo (see `Core.getDeplist`).  Returns the file cache as changed by the call. -/
def internalUpdateIf (P : Proj α) (canon : String → String) (fs : FS α) (lim : Nat) (o : Nat)
    (cache : FileCache) : Except Err (Bool × FileCache) :=
  match P.kind o with
  | .file | .source =>
    if P.force o then .ok (true, cache)
    else
      let e := getInfo fs cache (P.path o)
      if e.1.exist = false then .ok (true, e.2)
      else do
        let l ← (P.reg.obj o).deps.mapM (Core.get canon P.reg)
        let m ← maxDepTime P canon fs lim l e.2
        let i := getInfo fs m.2 (P.path o)
        .ok (decide (m.1 > i.1.mtime), i.2)
  | .dir =>
    let e := getInfo fs cache (P.path o)
    .ok (!e.1.exist, e.2)
  | .fileset => .ok (false, cache)
  | .other => do
    let b ← P.upd o
    .ok (b, cache)

/-- The answers of `update_if` during an evaluation (core.py:52-54) that begins with the file cache
`cache`.  The evaluation passes the cache from one call to the next; each answer is the same as with
the cache it began with (`internalUpdateIf_cache`). -/
def updIf (P : Proj α) (canon : String → String) (fs : FS α) (cache : FileCache) (lim : Nat) (o : Nat) :
    Except Err Bool :=
  (internalUpdateIf P canon fs lim o cache).map (·.1)

/-! ### builds -/

/-- The state of a running build: the solver's, the file system, the time, the file cache. -/
structure St (α : Type) where
  sol : Solver.St
  fs : FS α
  clock : Nat
  cache : FileCache

/-- Events of a build. -/
inductive Ev (α : Type) where
  /-- an event of the solver -/
  | sched (e : Solver.Ev)
  /-- time passes -/
  | tick
  /-- the build command of target number `i` writes `v` to its target file -/
  | write (i : Nat) (v : α)

/-- `open(p, "w").write(...)` / a compiler writing its output -/
def setFile (fs : FS α) (p : String) (e : Entry α) : FS α := fun q => if q = p then some e else fs q

/-- `os.makedirs(p)`: creates `p` and all missing ancestors -/
def makedirs (P : Proj α) (fs : FS α) (clock : Nat) (p : String) : FS α := fun q =>
  match fs q with
  | some e => some e
  | none => if q = p ∨ q ∈ P.parents p then some ⟨clock, none⟩ else none

/-- The end of the work function of object `o` with result `r`: `none` if it cannot end that way,
otherwise the new file system and cache.
* directories: make.py:200-204 `update_if_need`, 76-80 `DirectoryKeeper.__call__`, 179-182 `update`.
  `os.makedirs` raises if the path exists (or for other reasons).
* others: core.py:355-362 `update_if_need`.
  - sources: `warn_if_not_exist` returns `None` (make.py:154-158, 218), then `update_info`.
  - filesets: `UpdatableTarget.update` returns `True` (core.py:333-334).
  - files: the command ended somehow, `update_info` (make.py:57-60, 179-182), unless an exception was
    raised.  What the command did to its target file are the `write` events before.  Simplification:
    a build command changes no file but its target.
  - other targets: any result; simplification: they change no files. -/
def finishEffect (P : Proj α) (need : Nat → Option Bool) (s : St α) (o : Nat) (r : Solver.Ret) :
    Option (FS α × FileCache) :=
  match P.kind o with
  | .dir =>
    let e := getInfo s.fs s.cache (P.path o)
    if e.1.exist then (if r = .ok then some (s.fs, e.2) else none)
    else match s.fs (P.path o), r with
      | none, .ok =>
        let fs := makedirs P s.fs s.clock (P.path o)
        some (fs, updateInfo fs e.2 (P.path o))
      | _, .raise => some (s.fs, e.2)
      | _, _ => none
  | k =>
    match work P.reg need o with
    | .raises => if r = .raise then some (s.fs, s.cache) else none
    | .skips => if r = .ok then some (s.fs, s.cache) else none
    | .calls =>
      match k with
      | .source => if r = .ok then some (s.fs, updateInfo s.fs s.cache (P.path o)) else none
      | .fileset => if r = .ok then some (s.fs, s.cache) else none
      | .file => if r = .raise then some (s.fs, s.cache)
                 else some (s.fs, updateInfo s.fs s.cache (P.path o))
      | _ => some (s.fs, s.cache)

/-- One event of a build; `objs` are the target objects behind the solver's targets.
A `write` needs a worker that is running the update of a file target. -/
def step (P : Proj α) (need : Nat → Option Bool) (objs : List Nat) (g : Solver.Graph) (s : St α) :
    Ev α → Option (St α)
  | .tick => some { s with clock := s.clock + 1 }
  | .write i v =>
    match objs[i]? with
    | some o =>
      if Solver.WS.run i ∈ s.sol.ws ∧ P.kind o = .file ∧ work P.reg need o = .calls then
        some { s with fs := setFile s.fs (P.path o) ⟨s.clock, some v⟩ }
      else none
    | none => none
  | .sched e =>
    match Solver.step g s.sol e with
    | none => none
    | some sol =>
      match e with
      | .finish _ i r =>
        match objs[i]? with
        | some o =>
          match finishEffect P need s o r with
          | some p => some { s with sol := sol, fs := p.1, cache := p.2 }
          | none => none
        | none => none
      | _ => some { s with sol := sol }

/-- Executions of a build from `s0`. -/
inductive Run (P : Proj α) (need : Nat → Option Bool) (objs : List Nat) (g : Solver.Graph) (s0 : St α) :
    List (Ev α) → St α → Prop
  | nil : Run P need objs g s0 [] s0
  | snoc {tr s e s'} : Run P need objs g s0 tr s → step P need objs g s e = some s' →
      Run P need objs g s0 (tr ++ [e]) s'

/-- the solver's events of a build -/
def sched (tr : List (Ev α)) : List Solver.Ev :=
  tr.filterMap fun | .sched e => some e | _ => none

/-- The file cache after calls of `update_if` of the objects `l`, one after the other. -/
def evalCache (P : Proj α) (canon : String → String) (fs : FS α) (lim : Nat) (l : List Nat)
    (cache : FileCache) : Except Err FileCache :=
  l.foldlM (fun c o => do
    let r ← internalUpdateIf P canon fs lim o c
    .ok r.2) cache

/-- One call of `core.do(root, "makefile")` (core.py:284, make.py:99-100): all needs are evaluated
(`need`), then `recurse_update` prepares the solver.  `fs` and `cache` are the file system and the
file cache at the beginning.  The orders of sets, recursion limits, thread count, previous marks
and the closure cache are arbitrary. -/
structure Invocation (P : Proj α) (canon : String → String) (root : Nat) (fs : FS α)
    (cache : FileCache) where
  need : Nat → Option Bool
  objs : List Nat
  ds : List Solver.DTarget
  g : Solver.Graph
  n : Nat
  /-- the file cache after the evaluation -/
  cache1 : FileCache
  evaluated : ∃ (lim lim' : Nat) (m m' : Marks), Coherent canon P.reg m.cached ∧
    updateNeeds canon P.reg (updIf P canon fs cache lim) lim' m = .ok m' ∧ need = m'.need
  /-- the evaluation asks all updatable targets (core.py:44-54, 355; `updateNeeds_called`), in some
  order -/
  cached : ∃ (lim : Nat) (l : List Nat),
    (∀ o, o ∈ l ↔ Registered P.reg o ∧ (P.reg.obj o).upd = true) ∧
    evalCache P canon fs lim l cache = .ok cache1
  prepared : ∃ (setOrder : List Nat → List Nat) (order : Nat → List Nat → List Nat) (lim : Nat)
    (ca : Cache) (rt : Option (Option Int)) (threads : Option Int),
    (∀ l, (setOrder l).Perm l) ∧ Solver.IsOrder order ∧ (∀ t b, ca.get (.pair t b) = none) ∧
    recurseUpdate canon P.reg setOrder order lim ca rt root threads = .ok (objs, ds, g, n)

/-- the state in which the workers start -/
def Invocation.start {P : Proj α} {canon : String → String} {root : Nat} {fs : FS α} {cache : FileCache}
    (B : Invocation P canon root fs cache) (clock : Nat) : St α :=
  ⟨Solver.init B.g B.n, fs, clock, B.cache1⟩

/-- `B.Run clock tr s`: started at time `clock`, the events `tr` can happen and lead to `s`. -/
def Invocation.Run {P : Proj α} {canon : String → String} {root : Nat} {fs : FS α} {cache : FileCache}
    (B : Invocation P canon root fs cache) (clock : Nat) (tr : List (Ev α)) (s : St α) : Prop :=
  Make.Run P B.need B.objs B.g (B.start clock) tr s

/-- `makefile` returned `True`. -/
def St.Succeeded (s : St α) : Prop := s.sol.returned ∧ s.sol.verdict = true

/-- The target objects whose `update` was called. -/
def Invocation.updates {P : Proj α} {canon : String → String} {root : Nat} {fs : FS α}
    {cache : FileCache} (B : Invocation P canon root fs cache) (tr : List (Ev α)) : List Nat :=
  updateCalls P.reg B.need B.objs (sched tr)

/-- The file targets whose build command was called (make.py:180). -/
def Invocation.commands {P : Proj α} {canon : String → String} {root : Nat} {fs : FS α}
    {cache : FileCache} (B : Invocation P canon root fs cache) (tr : List (Ev α)) : List Nat :=
  (B.updates tr).filter (fun o => P.kind o = .file)

end Licant.Make
