/-
Specification vocabulary for the core properties.
-/
import Verif.Core.Model
import Mathlib.Logic.Relation

set_option autoImplicit false

namespace Licant.Core
open Relation

/-- In registry `c` the name `n` means the object `o`: registered under exactly that name, or else
registered under the canonical path of `n`. -/
def Resolves (canon : String → String) (c : Reg) (n : String) (o : Nat) : Prop :=
  c.targets.get n = some o ∨ (c.targets.get n = none ∧ c.targets.get (canon n) = some o)

/-- The target called `n` lists the dependency name `d`. -/
def NameDep (canon : String → String) (c : Reg) (n d : String) : Prop :=
  ∃ o, Resolves canon c n o ∧ d ∈ (c.obj o).deps

/-- Object `o` depends directly on object `o'`. -/
def ObjDep (canon : String → String) (c : Reg) (o o' : Nat) : Prop :=
  ∃ d ∈ (c.obj o).deps, Resolves canon c d o'

/-- Every dependency reachable from the name `n` is registered, and so is `n`. -/
def AllRegistered (canon : String → String) (c : Reg) (n : String) : Prop :=
  ∀ d, ReflTransGen (NameDep canon c) n d → ∃ o, Resolves canon c d o

/-- `os.path.realpath` of a real path is that path. -/
def Idempotent (canon : String → String) : Prop := ∀ n, canon (canon n) = canon n

/-- Registry operations as seen by a user. -/
inductive Op where
  | add (ob : Obj)
  | has (n : String)

/-- the registry after a history -/
def runOps (canon : String → String) (c : Reg) : List Op → Reg
  | [] => c
  | .add ob :: ops => runOps canon (add c ob).1 ops
  | .has n :: ops => runOps canon (has canon c n).1 ops

/-- `o` is one of the registered target objects. -/
def Registered (c : Reg) (o : Nat) : Prop := ∃ n, c.targets.get n = some o

/-- The `update_if` of `o`, or of a target reachable from it through dependencies, is true. -/
def Stale (canon : String → String) (c : Reg) (updIf : Nat → Except Err Bool) (o : Nat) : Prop :=
  ∃ o', ReflTransGen (ObjDep canon c) o o' ∧ updIf o' = .ok true

/-- The dependency lists remembered by the target objects (initially none) are those of the
present registry. -/
def Coherent (canon : String → String) (c : Reg) (cached : Nat → Option (List Nat)) : Prop :=
  ∀ o l, cached o = some l → List.Forall₂ (Resolves canon c) (c.obj o).deps l

/-- Every dependency of every registered target is registered. -/
def FullyRegistered (canon : String → String) (c : Reg) : Prop :=
  ∀ o, Registered c o → ∀ d ∈ (c.obj o).deps, ∃ o', Resolves canon c d o'

/-- The dependency graph of the registered targets has no cycle. -/
def Acyclic (canon : String → String) (c : Reg) : Prop := ∀ o, ¬ TransGen (ObjDep canon c) o o

/-- No chain of dependencies has more than `lim` members. -/
def DepthBound (canon : String → String) (c : Reg) (lim : Nat) : Prop :=
  ∀ l : List Nat, (∀ o ∈ l, Registered c o) → l.IsChain (ObjDep canon c) → l.length ≤ lim

/-- Every name leads to an object that is registered under its own name.  Holds as long as no
name is registered twice (`consistent_runOps`). -/
def Consistent (c : Reg) : Prop :=
  ∀ n o, c.targets.get n = some o → c.targets.get (c.obj o).tgt = some o

/-- No name is registered twice in the history. -/
def NoReRegistration (ops : List Op) : Prop :=
  (ops.filterMap fun | .add ob => some ob.tgt | .has _ => none).Nodup

/-- the closure of `self`: the objects reachable through dependencies, `self` included -/
def Closure (canon : String → String) (c : Reg) (self o : Nat) : Prop :=
  ReflTransGen (ObjDep canon c) self o

end Licant.Core
