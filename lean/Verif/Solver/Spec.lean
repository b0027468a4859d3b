/-
Specification vocabulary for the solver properties: what a list of targets means,
independently of how solver.py processes it.
-/
import Verif.Solver.Model
import Mathlib.Logic.Relation

set_option autoImplicit false

namespace Licant.Solver
open Relation

/-- `nm` denotes target number `j` of the list: `j` has that name, and it is the last
target with that name (when names are distinct: the only one). -/
def Denotes (ts : List DTarget) (nm : String) (j : Nat) : Prop :=
  (∃ t, ts[j]? = some t ∧ t.name = nm) ∧ ∀ k t, ts[k]? = some t → t.name = nm → k ≤ j

/-- Target number `i` lists a name that denotes target number `j`. -/
def DependsOn (ts : List DTarget) (i j : Nat) : Prop :=
  ∃ t nm, ts[i]? = some t ∧ nm ∈ t.depsArg ∧ Denotes ts nm j

/-- There is a dependency cycle. -/
def Cyclic (ts : List DTarget) : Prop := ∃ i, TransGen (DependsOn ts) i i

/-- Every dependency names a target of the list. -/
def Closed (ts : List DTarget) : Prop :=
  ∀ t ∈ ts, ∀ nm ∈ t.depsArg, ∃ t' ∈ ts, t'.name = nm

/-- Some target has no dependency. -/
def HasRoot (ts : List DTarget) : Prop := ∃ t ∈ ts, t.depsArg = []

/-- Every chain of distinct targets, each depending on the previous one, has at most `lim`
members.  (Implied by `ts.length ≤ lim`.)  `lim` is the recursion depth still available to
the constructor. -/
def DepthWithin (ts : List DTarget) (lim : Nat) : Prop :=
  ∀ l : List Nat, l.Nodup → (∀ x ∈ l, x < ts.length) →
    l.IsChain (fun a b => DependsOn ts b a) → l.length ≤ lim

/-- Set iteration order: any permutation. -/
def IsOrder (order : Nat → List Nat → List Nat) : Prop := ∀ i l, (order i l).Perm l

end Licant.Solver
