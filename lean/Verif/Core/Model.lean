/-
Model of licant/core.py: registry, closure, need evaluation, recurse_update, do/invoke.
Definitions only.
-/
import Verif.Solver.Model
import Mathlib.Data.List.Sort
import Mathlib.Data.String.Basic

set_option autoImplicit false

namespace Licant.Core
open Licant.Py

/-- How a call of the modelled functions ends abnormally. -/
inductive Err where
  /-- `licant.util.error` (util.py:103-105): message and `exit(-1)` -/
  | exit
  /-- `AttributeError` -/
  | attribute
  /-- `RecursionError` -/
  | recursion
  /-- `TypeError` -/
  | type
  /-- core.py:12-18 `WrongAction` -/
  | wrongAction
  /-- an exception of the solver's constructor -/
  | solver (e : Solver.Err)
  /-- an exception raised by user code (`update_if`) -/
  | user
  deriving DecidableEq, Repr

/-- core.py:174-204 `Target.__init__`, 304-320 `UpdatableTarget.__init__`, 398-416
`Routine.__init__`: the parts of a target object used by the core.  `deps` is the list after
`to_name_if_needed` and `expand_globs` (187-189, modelled in Make/).  `upd` says whether the object is
an instance of `UpdatableTarget`.  Function-valued attributes (`update_if`, `update`, ...) are
parameters of the functions below. -/
structure Obj where
  tgt : String
  deps : List String
  upd : Bool
  weakdeps : List String := []
  defaultAction : String := "action"
  deriving DecidableEq, Repr

/-- core.py:32-38 `Core`: `targets` is `_targets`, a dictionary from names to target objects;
objects are numbers, `obj` gives their contents. -/
structure Reg where
  targets : Dict String Nat := []
  obj : Nat → Obj
  next : Nat := 0

/-- an empty core -/
def Reg.empty : Reg := { obj := fun _ => ⟨"", [], false, [], "action"⟩ }

/-- core.py:62-73 `Core.add` of a newly created target object (118-124: `target`,
`updtarget`; 141-143 `routine_do`).  Returns the object number.  The help list is not modelled. -/
def add (c : Reg) (ob : Obj) : Reg × Nat :=
  ({ targets := c.targets.set ob.tgt c.next
     obj := fun i => if i = c.next then ob else c.obj i
     next := c.next + 1 }, c.next)

/-- core.py:75-84 `Core.get`.  `canon` is `licant.util.canonical_path` (util.py:284-288), i.e.
`os.path.realpath` memoised: a fixed function. -/
def get (canon : String → String) (c : Reg) (n : String) : Except Err Nat :=
  match c.targets.get n with
  | some o => .ok o
  | none =>
    match c.targets.get (canon n) with
    | some o => .ok o
    | none => .error .exit

/-- core.py:86-96 `Core.has` (59-60 `exist`), including the "lazy access optimization" that
stores an alias. -/
def has (canon : String → String) (c : Reg) (n : String) : Reg × Bool :=
  if c.targets.has n then (c, true)
  else match c.targets.get (canon n) with
    | some o => ({ c with targets := c.targets.set n o }, true)
    | none => (c, false)

/-- core.py:98-103 `depends_as_set_impl`; `accum` is the mutable set, returned.
`fuel` is the remaining recursion depth. -/
def dependsAsSetImpl (canon : String → String) (c : Reg) :
    (fuel : Nat) → (tgt : String) → (accum : List String) → Except Err (List String)
  | 0, _, _ => .error .recursion
  | fuel + 1, tgt, accum =>
    match get canon c tgt with
    | .error e => .error e
    | .ok o =>
      (c.obj o).deps.foldlM (fun accum d =>
        if d ∈ accum then .ok accum
        else dependsAsSetImpl canon c fuel d (sadd accum d)) accum

/-- The keys of `depends_as_set_lazy_cache` (38): looked up as a pair (106), stored as the plain
target reference (115). -/
inductive CacheKey where
  | pair (tgt : String) (incroot : Bool)
  | plain (tgt : String)
  deriving DecidableEq, Repr

abbrev Cache := Dict CacheKey (List String)

/-- Python's `sorted` on strings (code point order). -/
def sorted (l : List String) : List String := l.insertionSort (· ≤ ·)

/-- core.py:105-116 `depends_as_set`.  A target object given as `tgt` is represented by
`str(tgt) = tgt.tgt`. -/
def dependsAsSet (canon : String → String) (c : Reg) (lim : Nat) (cache : Cache) (tgt : String)
    (incroot : Bool) : Except Err (List String × Cache) :=
  match cache.get (.pair tgt incroot) with
  | some r => .ok (r, cache)
  | none =>
    let accumulator := if incroot then [tgt] else []
    match dependsAsSetImpl canon c lim tgt accumulator with
    | .error e => .error e
    | .ok acc => .ok (sorted acc, cache.set (.plain tgt) (sorted acc))

/-! ### need evaluation -/

/-- core.py:249-253 `get_deplist`: the target objects of the dependencies, computed once per
object and kept in `cached_deplist`. -/
def getDeplist (canon : String → String) (c : Reg) (cached : Nat → Option (List Nat)) (o : Nat) :
    Except Err (List Nat × (Nat → Option (List Nat))) :=
  match cached o with
  | some l => .ok (l, cached)
  | none => do
    let l ← (c.obj o).deps.mapM (get canon c)
    .ok (l, fun i => if i = o then some l else cached i)

/-- core.py:336-347 `recursive_update_needed_request`.  `updIf o` is the result of calling the
object's `update_if`; `need` are the `need_update` attributes; `fuel` the recursion limit.
Objects that are no `UpdatableTarget` have no such method: `AttributeError`. -/
def request (canon : String → String) (c : Reg) (updIf : Nat → Except Err Bool)
    (need : Nat → Option Bool) :
    (fuel : Nat) → (o : Nat) → (cached : Nat → Option (List Nat)) →
      Except Err (Bool × (Nat → Option (List Nat)))
  | 0, _, _ => .error .recursion
  | fuel + 1, o, cached =>
    if (c.obj o).upd = false then .error .attribute
    else match need o with
    | some b => .ok (b, cached)
    | none => do
      if (← updIf o) then .ok (true, cached)
      else
        let (l, cached) ← getDeplist canon c cached o
        l.foldlM (fun (p : Bool × (Nat → Option (List Nat))) dep =>
          if p.1 then .ok p else request canon c updIf need fuel dep p.2) (false, cached)

/-- The mutable attributes of the target objects used by the evaluation. -/
structure Marks where
  need : Nat → Option Bool
  cached : Nat → Option (List Nat)

/-- core.py:327-328, 40-44: `nullify_update_needity` on all registered targets (a no-op on
plain targets). -/
def nullify (c : Reg) (m : Marks) : Marks :=
  { m with need := fun o => if o ∈ c.targets.map (·.2) ∧ (c.obj o).upd = true then none else m.need o }

/-- core.py:322-325 / 212-213: `evaluate_update_needity` of one object. -/
def evaluateOne (canon : String → String) (c : Reg) (updIf : Nat → Except Err Bool) (lim : Nat)
    (m : Marks) (o : Nat) : Except Err Marks :=
  if (c.obj o).upd then do
    let (b, cached) ← request canon c updIf m.need lim o m.cached
    .ok { need := fun i => if i = o then some b else m.need i, cached := cached }
  else .ok m

/-- core.py:52-54 `update_update_needity` (40-50): nullify, then evaluate all values of the
dictionary in insertion order (an object stored under two names is visited twice). -/
def updateNeeds (canon : String → String) (c : Reg) (updIf : Nat → Except Err Bool) (lim : Nat)
    (m : Marks) : Except Err Marks :=
  (c.targets.map (·.2)).foldlM (evaluateOne canon c updIf lim) (nullify c m)

/-! ### recurse_update -/

/-- core.py:381-386: the `DependableTarget` made for object `o`: its name and the names of the
objects its dependencies resolve to. -/
def mkDep (canon : String → String) (c : Reg) (o : Nat) : Except Err Solver.DTarget := do
  let deps ← (c.obj o).deps.mapM (fun d => do
    let o' ← get canon c d
    .ok (c.obj o').tgt)
  .ok ⟨(c.obj o).tgt, deps⟩

/-- core.py:364-391 up to the construction of the solver: the objects of the closure in the
order in which the set is iterated, and the targets handed to the solver.
`setOrder` is the iteration order of the set of target objects. -/
def prepare (canon : String → String) (c : Reg) (setOrder : List Nat → List Nat) (lim : Nat)
    (cache : Cache) (self : Nat) : Except Err (List Nat × List Solver.DTarget × Cache) := do
  let (names, cache) ← dependsAsSet canon c lim cache (c.obj self).tgt true
  let objs ← names.mapM (get canon c)
  let objs := setOrder (mkset objs)
  let ds ← objs.mapM (mkDep canon c)
  .ok (objs, ds, cache)

/-- The thread count used by `recurse_update` (365-366): the argument, unless the key is present
in the runtime dictionary.  `None` is `none`. -/
def threadCount (runtimeThreads : Option (Option Int)) (arg : Option Int) : Option Int :=
  match runtimeThreads with
  | some t => t
  | none => arg

/-- core.py:391-392: construction of the solver.  `[True] * threads_count` with `None`
(solver.py:78) raises `TypeError` before the graph is looked at. -/
def mkSolver (order : Nat → List Nat → List Nat) (lim : Nat) (threads : Option Int)
    (ds : List Solver.DTarget) : Except Err (Solver.Graph × Nat) :=
  match threads with
  | none => .error .type
  | some k =>
    match Solver.construct order lim ds with
    | .error e => .error (.solver e)
    | .ok g => .ok (g, k.toNat)

/-- `recurse_update` before the event loop starts. -/
def recurseUpdate (canon : String → String) (c : Reg) (setOrder : List Nat → List Nat)
    (order : Nat → List Nat → List Nat) (lim : Nat) (cache : Cache)
    (runtimeThreads : Option (Option Int)) (self : Nat) (threads : Option Int) :
    Except Err (List Nat × List Solver.DTarget × Solver.Graph × Nat) := do
  let (objs, ds, _) ← prepare canon c setOrder lim cache self
  let (g, n) ← mkSolver order lim (threadCount runtimeThreads threads) ds
  .ok (objs, ds, g, n)

/-- What the work function of object `o` does (core.py:355-362 `update_if_need`).
* a plain `Target` has no `update_if_need`: `AttributeError`
* `need_update is None`: raises
* needed: calls `update`, result `r`
* not needed: returns `True`. -/
inductive Work where
  | raises
  | calls
  | skips
  deriving DecidableEq, Repr

def work (c : Reg) (need : Nat → Option Bool) (o : Nat) : Work :=
  if (c.obj o).upd = false then .raises
  else match need o with
    | none => .raises
    | some true => .calls
    | some false => .skips

/-- Executions of the solver in which the work functions are `update_if_need` of the objects
`objs`: work that raises ends with `raise`, skipped work returns `True`. -/
structure BuildExec (c : Reg) (need : Nat → Option Bool) (objs : List Nat) (g : Solver.Graph)
    (n : Nat) (tr : List Solver.Ev) (s : Solver.St) : Prop where
  exec : Solver.Exec g n tr s
  raises : ∀ w i r o, Solver.Ev.finish w i r ∈ tr → objs[i]? = some o →
    work c need o = .raises → r = .raise
  skips : ∀ w i r o, Solver.Ev.finish w i r ∈ tr → objs[i]? = some o →
    work c need o = .skips → r = .ok

/-- The objects whose `update` is called in a trace, in order: the solver starts their work
function and `update_if_need` (359-360) calls `update`. -/
def updateCalls (c : Reg) (need : Nat → Option Bool) (objs : List Nat) (tr : List Solver.Ev) : List Nat :=
  tr.filterMap fun
    | .start _ i =>
      match objs[i]? with
      | some o => if work c need o = .calls then some o else none
      | none => none
    | _ => none

/-- core.py:330-331 `recurse_update_get_args`: `recurse_update(threads=self.core.runtime["threads"])`;
a missing key reads as `None` (25-29). -/
def recurseUpdateGetArgs (canon : String → String) (c : Reg) (setOrder : List Nat → List Nat)
    (order : Nat → List Nat → List Nat) (lim : Nat) (cache : Cache)
    (runtimeThreads : Option (Option Int)) (self : Nat) :
    Except Err (List Nat × List Solver.DTarget × Solver.Graph × Nat) :=
  recurseUpdate canon c setOrder order lim cache runtimeThreads self (runtimeThreads.getD none)

/-! ### routines -/

/-- core.py:416, 421-422: the `args` attributes of the routines; initially empty lists, replaced
by `invoke_routine`. -/
def setArgs (args : Nat → List String) (o : Nat) (a : List String) : Nat → List String :=
  fun i => if i = o then a else args i

/-- core.py:421-423 `invoke_routine(*args, threads=1)`: store the arguments, then `recurse_update`.
(`do` passes the argument list as `args`, so `threads` keeps its default 1.) -/
def invokeRoutine (canon : String → String) (c : Reg) (setOrder : List Nat → List Nat)
    (order : Nat → List Nat → List Nat) (lim : Nat) (cache : Cache)
    (runtimeThreads : Option (Option Int)) (args : Nat → List String) (self : Nat) (a : List String) :
    (Nat → List String) × Except Err (List Nat × List Solver.DTarget × Solver.Graph × Nat) :=
  (setArgs args self a,
   recurseUpdate canon c setOrder order lim cache runtimeThreads self (some 1))

/-- core.py:418-419 `Routine.update`: `func(*self.args)`.  The calls of routine functions made by a
build: object and arguments. -/
def routineCalls (isRoutine : Nat → Bool) (args : Nat → List String) (c : Reg)
    (need : Nat → Option Bool) (objs : List Nat) (tr : List Solver.Ev) : List (Nat × List String) :=
  ((updateCalls c need objs tr).filter isRoutine).map fun o => (o, args o)

/-! ### invoke and do -/

/-- How a target is referred to in `Core.do`. -/
inductive Ref where
  | name (n : String)
  | obj (o : Nat)
  | list (l : List Ref)

/-- A call of an action on an object. -/
structure Call where
  obj : Nat
  action : String
  args : List String
  deriving DecidableEq, Repr

/-- core.py:264-297 `invoke`: first the evaluation (`eval`), then `getattr`: `hasattr o a` says
whether the attribute exists (and is callable); a missing attribute gives `None`, or
`WrongAction` if `critical`.  `act` performs the call.  `σ` is the whole program state. -/
def invoke {σ : Type} (eval : σ → Except Err σ) (hasattr : Nat → String → Bool)
    (act : Call → σ → Except Err σ) (critical : Bool) (k : Call) (s : σ) : Except Err σ := do
  let s ← eval s
  if hasattr k.obj k.action then act k s
  else if critical then .error .wrongAction
  else .ok s

mutual
/-- core.py:126-139 `Core.do`. -/
def doRef {σ : Type} (canon : String → String) (core : σ → Reg) (eval : σ → Except Err σ)
    (hasattr : Nat → String → Bool) (act : Call → σ → Except Err σ) (action : Option String)
    (args : List String) : Ref → σ → Except Err σ
  | .name n, s => do
    let o ← get canon (core s) n
    invoke eval hasattr act false
      ⟨o, action.getD ((core s).obj o).defaultAction, args⟩ s
  | .obj o, s =>
    invoke eval hasattr act false
      ⟨o, action.getD ((core s).obj o).defaultAction, args⟩ s
  | .list l, s => doRefs canon core eval hasattr act action args l s

/-- the loop of 132-134 -/
def doRefs {σ : Type} (canon : String → String) (core : σ → Reg) (eval : σ → Except Err σ)
    (hasattr : Nat → String → Bool) (act : Call → σ → Except Err σ) (action : Option String)
    (args : List String) : List Ref → σ → Except Err σ
  | [], s => .ok s
  | r :: rs, s => do
    let s ← doRef canon core eval hasattr act action args r s
    doRefs canon core eval hasattr act action args rs s
end

end Licant.Core
