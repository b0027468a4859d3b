/-
Model of licant/solver.py and of util.invert_depends_dictionary.
Definitions only.
-/
import Verif.Py.Dict

set_option autoImplicit false

namespace Licant.Solver
open Licant.Py

/-- The exceptions of solver.py:163-185 (`UnknowTargetError`, ...), plus `KeyError`
(dictionary access) and `RecursionError` (Python's recursion limit).
`TypeError` of `check` (solver.py:259-266) cannot occur on typed input. -/
inductive Err where
  | unknown (name : String)
  | noRoot
  | circular (path : List Nat)
  | connectivity (nonvisited : List Nat)
  | doubleDepends (dep : String)
  | keyError
  | recursion
  deriving DecidableEq, Repr

/-- util.py:14-23 `invert_depends_dictionary`.  Sets are duplicate-free lists.
First loop (16-17): every key gets an empty set; second loop (19-22): for every target
and every dependency `inverse[dep].add(target)`, a `KeyError` if `dep` is no key. -/
def invertDependsDictionary {α : Type*} [DecidableEq α] (d : Dict α (List α)) :
    Except Err (Dict α (List α)) :=
  let inverse := d.foldl (fun inv p => Dict.set inv p.1 ([] : List α)) []
  d.foldlM (fun inv p =>
    p.2.foldlM (fun (inv : Dict α (List α)) dep =>
      match inv.get dep with
      | none => Except.error Err.keyError
      | some s => Except.ok (inv.set dep (sadd s p.1))) inv) inverse

/-- solver.py:6-13 `DependableTarget` as given by the caller: name and the `deps`
argument.  `what_to_do` is represented by the results in an execution (`Ret`). -/
structure DTarget where
  name : String
  depsArg : List String
  deriving DecidableEq, Repr

/-- solver.py:9 `self.deps = set(deps)`. -/
def DTarget.deps (t : DTarget) : List String := mkset t.depsArg

/-- solver.py:218-226 `double_depends_check` (which can never fire, `deps` being a set). -/
def doubleDependsCheck (ts : List DTarget) : Except Err Unit :=
  ts.forM fun t => t.deps.forM fun dep =>
    if (t.deps.filter (fun dep2 => dep = dep2)).length > 1
    then .error (.doubleDepends dep) else .ok ()

/-- solver.py:198-199 `names_to_deptargets`, a dict comprehension: a later target with
the same name replaces the earlier one.  Target objects are identified with their
position in the list (`DependableTargetRuntime` compares by identity). -/
def namesToDeptargets (ts : List DTarget) : Dict String Nat :=
  ts.zipIdx.foldl (fun d p => Dict.set d p.1.name p.2) []

/-- solver.py:253-254, inner loop: the set of target objects a dependency set denotes. -/
def resolveDeps (names : Dict String Nat) (deps : List String) : Except Err (List Nat) :=
  deps.foldlM (fun acc dep =>
    match names.get dep with
    | none => .error (.unknown dep)
    | some j => .ok (sadd acc j)) []

/-- solver.py:248-257 `collect_depends_of_targets`: dict from target object to set of
target objects. -/
def collectDependsOfTargets (ts : List DTarget) (names : Dict String Nat) :
    Except Err (Dict Nat (List Nat)) :=
  ts.zipIdx.foldlM (fun d p => do
    let s ← resolveDeps names p.1.deps
    pure (Dict.set d p.2 s)) []

/-- solver.py:228-236 `dfs`.  `visited` is the mutable set, returned; `path` is restored by
`path.pop()` on normal return, hence an argument only.  `order i s` is the iteration
order of the set `s` of inverse dependencies of `i`.  `fuel` is the remaining recursion
depth of the interpreter. -/
def dfs (succ : Nat → List Nat) : (fuel : Nat) → (target : Nat) → (visited path : List Nat) →
    Except Err (List Nat)
  | 0, _, _, _ => .error .recursion
  | fuel + 1, target, visited, path =>
    let visited := sadd visited target
    let path := path ++ [target]
    (succ target).foldlM (fun visited dep =>
      if dep ∈ path then .error (.circular (path ++ [dep]))
      else if dep ∈ visited then .ok visited
      else dfs succ fuel dep visited path) visited

/-- solver.py:238-246 `connectivity_check`. -/
def connectivityCheck (succ : Nat → List Nat) (lim : Nat) (n : Nat) (roots : List Nat) :
    Except Err Unit := do
  let visited ← roots.foldlM (fun visited target => dfs succ lim target visited []) []
  if visited.length ≠ n then
    .error (.connectivity ((List.range n).filter (fun i => i ∉ visited)))
  else .ok ()

/-- What the constructor leaves behind: number of targets, dependency counters
(`depcount = len(deps)`, solver.py:32), inverse dependencies in iteration order, and the
targets already put in the queue. -/
structure Graph where
  size : Nat
  depcount : Nat → Nat
  inv : Nat → List Nat
  roots : List Nat

/-- solver.py:268-269 `get_non_dependable_targets`. -/
def nonDependable (ts : List DTarget) : List Nat :=
  (ts.zipIdx.filter (fun p => p.1.deps.length = 0)).map (·.2)

/-- solver.py:189-216 `InverseRecursiveSolver.__init__`.
`order i` is the iteration order of the set of inverse dependencies of target `i`
(object hash order, unspecified); `lim` the interpreter's recursion limit.
The `assert` of line 204 is covered by `KeyError`-freedom. -/
def construct (order : Nat → List Nat → List Nat) (lim : Nat) (ts : List DTarget) :
    Except Err Graph := do
  doubleDependsCheck ts
  let names := namesToDeptargets ts
  let deps ← collectDependsOfTargets ts names
  let inverse ← invertDependsDictionary deps
  let inv := fun i => order i ((inverse.get i).getD [])
  let roots := nonDependable ts
  if roots.length = 0 then .error .noRoot
  else do
    connectivityCheck inv lim ts.length roots
    pure { size := ts.length
           depcount := fun i => ((ts[i]?).map (fun t => t.deps.length)).getD 0
           inv := inv
           roots := roots }

/-! ### Execution (asyncio workers) -/

/-- How a work function ends: returns something that `is not False`, returns `False`,
or raises. -/
inductive Ret where
  | ok | fail | raise
  deriving DecidableEq, Repr

/-- Where a worker coroutine (solver.py:113-154) is suspended. -/
inductive WS where
  /-- in `await self.queue.get()` of the main loop (116) -/
  | idle
  /-- in `await task` of `doit` (21), the work function of the target runs in a thread -/
  | run (t : Nat)
  /-- in `await self.queue.get()` of `release_queue` (153) -/
  | release
  /-- terminated by an exception that propagated out of the coroutine -/
  | dead
  deriving DecidableEq, Repr

/-- The state of `TaskInvoker` (71-81) and of the `DependableTargetRuntime`s. -/
structure St where
  queue : List Nat
  /-- `asyncio.Queue._unfinished_tasks` -/
  unfinished : Int
  error : Bool
  count : Nat → Int
  done : Nat → Bool
  onBase : List Bool
  ws : List WS

/-- Observable events.  `w` is the worker number. -/
inductive Ev where
  /-- worker `w` starts the work function of target `t` -/
  | start (w t : Nat)
  /-- the work function of `t`, run by worker `w`, ends with `r` -/
  | finish (w t : Nat) (r : Ret)
  /-- worker `w` takes a target from the queue although an error was flagged (118-119) -/
  | abandon (w t : Nat)
  /-- worker `w`, in `release_queue`, wakes up and empties the queue -/
  | drain (w : Nat)
  deriving DecidableEq, Repr

/-- solver.py:151-154 `release_queue` until it suspends: all queued targets are removed,
`task_done` called for each. -/
def release (s : St) (w : Nat) : St :=
  { s with queue := [], unfinished := s.unfinished - s.queue.length, ws := s.ws.set w .release }

/-- solver.py:45-49 `decrease_inverse_deps_count` followed by the loop of 54-55.
The Boolean is `false` if the assertion of line 49 failed (the exception leaves the loop). -/
def decreaseAll (s : St) : List Nat → St × Bool
  | [] => (s, true)
  | d :: ds =>
    let c := s.count d - 1
    let s := { s with count := fun i => if i = d then c else s.count i }
    let s := if c = 0 then { s with queue := s.queue ++ [d], unfinished := s.unfinished + 1 } else s
    if c < 0 then (s, false) else decreaseAll s ds

/-- One scheduler segment: `none` if the event cannot happen in this state.

* `start w t` (113-126): worker `w` waits in `queue.get()`, `t` is the head of the queue,
  no error is flagged; `thread_on_base[w] = False`, the work function is started.
* `abandon w t` (118-119, 149): as above with the error flag set; `break` without
  `task_done`, then `release_queue`.
* `finish w t r`: the thread of `t` ends with `r`.
  - `raise`: the exception propagates through `doit` and `worker` (only
    `KeyboardInterrupt` is caught): the worker is dead, `task_done` was not called.
  - otherwise (22-23, 53-56) the target is done, the counters of the inverse dependencies
    are decreased, ready targets queued; then 127-143: `task_done`; if the error flag is
    set, leave the loop; if the result is `False`, set it and leave; otherwise
    `thread_on_base[w] = True` and leave only if all threads are on base and the queue is empty.
* `drain w`: a worker in `release_queue` takes everything from a non-empty queue.

After `queue.join()` (unfinished = 0) the main coroutine cancels the workers: no event. -/
def step (g : Graph) (s : St) : Ev → Option St
  | .start w t =>
    match s.ws[w]?, s.queue with
    | some .idle, t' :: q =>
      if t' = t ∧ s.error = false ∧ s.unfinished ≠ 0 then
        some { s with queue := q, onBase := s.onBase.set w false, ws := s.ws.set w (.run t) }
      else none
    | _, _ => none
  | .abandon w t =>
    match s.ws[w]?, s.queue with
    | some .idle, t' :: q =>
      if t' = t ∧ s.error = true ∧ s.unfinished ≠ 0 then some (release { s with queue := q } w)
      else none
    | _, _ => none
  | .finish w t r =>
    if s.ws[w]? = some (.run t) ∧ s.unfinished ≠ 0 then
      match r with
      | .raise => some { s with ws := s.ws.set w .dead }
      | r =>
        let s := { s with done := fun i => if i = t then true else s.done i }
        match decreaseAll s (g.inv t) with
        | (s, false) => some { s with ws := s.ws.set w .dead }
        | (s, true) =>
          let s := { s with unfinished := s.unfinished - 1 }
          if s.error then some (release s w)
          else if r = .fail then some (release { s with error := true } w)
          else
            let s := { s with onBase := s.onBase.set w true }
            if s.onBase.all id ∧ s.queue = [] then some (release s w)
            else some { s with ws := s.ws.set w .idle }
    else none
  | .drain w =>
    if s.ws[w]? = some .release ∧ s.queue ≠ [] ∧ s.unfinished ≠ 0 then some (release s w) else none

/-- solver.py:71-81, 96-103, 209-211: the state in which `start` begins to wait for
`queue.join()`: the roots are queued, `n` workers wait. -/
def init (g : Graph) (n : Nat) : St :=
  { queue := g.roots
    unfinished := g.roots.length
    error := false
    count := fun i => g.depcount i
    done := fun _ => false
    onBase := List.replicate n true
    ws := List.replicate n .idle }

/-- All executions: `Exec g n tr s` iff `exec()` with `n` worker threads can perform the
events `tr` (oldest first) and then be in state `s`. -/
inductive Exec (g : Graph) (n : Nat) : List Ev → St → Prop
  | init : Exec g n [] (init g n)
  | snoc {tr s e s'} : Exec g n tr s → step g s e = some s' → Exec g n (tr ++ [e]) s'

/-- solver.py:105: `await self.queue.join()` has been passed, so `exec()` returns. -/
def St.returned (s : St) : Prop := s.unfinished = 0

/-- solver.py:274-277: the assertions `exec` checks when there was no error. -/
def St.assertionsHold (g : Graph) (s : St) : Prop :=
  s.queue = [] ∧ (∀ i < g.size, s.count i = 0) ∧ (∀ i < g.size, s.done i = true)

/-- solver.py:281: the value returned by `exec`. -/
def St.verdict (s : St) : Bool := !s.error

end Licant.Solver
