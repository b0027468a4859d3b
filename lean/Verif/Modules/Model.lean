/-
Model of `licant/modules.py` and of `collect_modules` in `licant/cxx_modules.py`.
-/
import Verif.Py.Dict
import Verif.Py.Path

set_option autoImplicit false

namespace Licant.Modules
open Licant.Py

/-- how a call can end without returning -/
inductive Err where
  /-- `exit(-1)`, with or without `licant.error` -/
  | exit
  /-- a Python exception (TypeError, IndexError, AttributeError, ...) -/
  | raised
  /-- RecursionError -/
  | recursion
  /-- the given number of loop rounds was not enough -/
  | diverge
deriving DecidableEq, Repr

/-- licant/cxx_make.py:18-29: the parts of a toolchain that occur in rules; `none` is Python's `None` -/
structure Toolchain where
  cxx : String
  cc : String
  ar : String
  moc : Option String := none
  uic : Option String := none
deriving DecidableEq, Repr

/-- The Python values that occur as options of modules.  `other` is any value of another class, of which
only the class name matters. -/
inductive Val where
  | none
  | str (s : String)
  | list (l : List Val)
  | tuple (l : List Val)
  | tool (t : Toolchain)
  /-- licant/modules.py:137-150: a `submodule` object (`addopts` is never read) -/
  | sub (name : String) (impl : Option String)
  | other (cls : String)
deriving Repr

/-- option dictionaries -/
abbrev Opts := Dict String Val

/-- iterating over a value with `for`; strings are iterated by character, tuples and lists by element -/
def Val.iter : Val → Except Err (List Val)
  | .list l => .ok l
  | .tuple l => .ok l
  | .str s => .ok (s.toList.map fun c => .str (String.ofList [c]))
  | _ => .error .raised

/-- licant/modules.py:10-17 -/
structure Mod where
  name : String
  /-- set by `VariantModule.addimpl` -/
  impl : Option String
  opts : Opts

/-- licant/modules.py:11-17: `script` and `dir` go into the options; `stack` is left out (it is only used in
one error message) -/
def newMod (name : String) (script dir : Val) (kwargs : Opts) : Mod :=
  ⟨name, none, (kwargs.set "__script__" script).set "__dir__" dir⟩

/-- licant/modules.py:29-32: the library; module objects are numbered, `obj` is the heap -/
structure Lib where
  modules : Dict String (Dict String Nat)
  defimpls : Dict String String
  obj : Nat → Mod
  next : Nat

/-- licant/modules.py:30-32 -/
def Lib.empty : Lib := ⟨[], [], fun _ => ⟨"", none, []⟩, 0⟩

/-- licant/modules.py:24-26, 34-45: `register_impl` with a new module object.  The branch that ends the program is
left out: only `VariantModule` objects are ever stored in `modules` (line 43). -/
def Lib.registerImpl (L : Lib) (m : Mod) (impl : String) : Lib :=
  let v := (L.modules.get m.name).getD []
  { L with modules := L.modules.set m.name (v.set impl L.next)
           obj := fun o => if o = L.next then { m with impl := some impl } else L.obj o
           next := L.next + 1 }

/-- licant/modules.py:47-68, `get` with an implementation; returns the number of the module object -/
def Lib.getImpl (L : Lib) (name impl : String) : Except Err (Lib × Nat) :=
  match L.modules.get name with
  | none => .error .exit
  | some v =>
    match v.get impl with
    | some o => .ok (L, o)
    | none =>
      if impl = "__none__" then .ok (L.registerImpl (newMod name .none .none []) "__none__", L.next)
      else .error .exit

/-- licant/modules.py:92-108 -/
def Lib.getDefault (L : Lib) (name : String) : Except Err (Lib × Nat) :=
  match L.defimpls.get name with
  | none => .error .exit
  | some impl => L.getImpl name impl

/-- licant/modules.py:47-68 -/
def Lib.get (L : Lib) (name : String) (impl : Option String) : Except Err (Lib × Nat) :=
  match L.modules.get name with
  | none => .error .exit
  | some _ =>
    match impl with
    | none => L.getDefault name
    | some i => L.getImpl name i

/-- licant/modules.py:70-81.  Without `force` a second choice ends the program; composing its message can raise
instead, which is not told apart. -/
def Lib.setDefimpl (L : Lib) (name impl : String) (force : Bool) : Except Err Lib :=
  if L.defimpls.has name && !force then .error .exit
  else .ok { L with defimpls := L.defimpls.set name impl }

/-- licant/modules.py:121-134; `script` is `scriptq.last()` -/
def Lib.implementation (L : Lib) (script : String) (name impl : String) (default : Bool) (kwargs : Opts) :
    Except Err Lib :=
  let dir := String.ofList (Path.dirname script.toList)
  let L := L.registerImpl (newMod name (.str script) (.str dir) kwargs) impl
  if default then L.setDefimpl name impl true else .ok L

/-- licant/modules.py:114-118 -/
def Lib.module (L : Lib) (script : String) (name : String) (impl : Option String) (default : Bool) (kwargs : Opts) :
    Except Err Lib :=
  match impl with
  | some i => L.implementation script name i default kwargs
  | none => L.implementation script name "__default__" true kwargs

/-! ### `collect_modules` -/

/-- an entry of `mdepends` -/
inductive MDep where
  | plain (name : String)
  | exact (name : String) (impl : Option String)
deriving DecidableEq, Repr

/-- licant/cxx_modules.py:382-389, 406-407: how an entry of `mdepends` is understood.  Tuples that are too short, or
whose members are of unexpected classes, raise or end the program. -/
def mdep : Val → Except Err MDep
  | .str n => .ok (.plain n)
  | .tuple (.str n :: .str i :: _) => .ok (.exact n (some i))
  | .tuple (.str n :: .none :: _) => .ok (.exact n none)
  | .tuple _ => .error .raised
  | _ => .error .exit

/-- the local variables of `collect_modules`, licant/cxx_modules.py:348-360, and the sort keys stored in the module
objects.  `included_from` is left out: it is only printed. -/
structure CState where
  lib : Lib
  queue : List String
  mdepends : Dict String Nat
  key : Nat → Nat
  counter : Nat

/-- licant/cxx_modules.py:368-371, 356-358 -/
def CState.specify (s : CState) (name : String) (o : Nat) : CState :=
  { s with mdepends := s.mdepends.set name o
           key := fun x => if x = o then s.counter else s.key x
           counter := s.counter + 1 }

/-- licant/cxx_modules.py:381-407, one round of the loop; `rec` is the recursive call -/
def entry (rec : CState → Nat → Except Err CState) (s : CState) (md : Val) : Except Err CState := do
  match ← mdep md with
  | .plain n =>
    if s.mdepends.has n then pure s
    else pure { s with queue := s.queue ++ [n] }
  | .exact n i =>
    let (L, o) ← s.lib.get n i
    let s := { s with lib := L }
    if s.mdepends.has n && s.mdepends.get n ≠ some o then throw .exit
    else
      let s := s.specify n o
      if (s.lib.obj o).opts.has "mdepends" then rec s o else pure s

/-- licant/cxx_modules.py:377-407: the inner function, called on a module that has the option `mdepends`; `fuel` is the
recursion limit -/
def collectIn : Nat → CState → Nat → Except Err CState
  | 0, _, _ => .error .recursion
  | fuel + 1, s, o =>
    match (s.lib.obj o).opts.get "mdepends" with
    | none => .error .raised
    | some v => do
      let l ← v.iter
      l.foldlM (entry (collectIn fuel)) s

/-- licant/cxx_modules.py:409-410, 420-421 -/
def collectIf (fuel : Nat) (s : CState) (o : Nat) : Except Err CState :=
  if (s.lib.obj o).opts.has "mdepends" then collectIn fuel s o else .ok s

/-- licant/cxx_modules.py:412-421; at most `steps` rounds -/
def collectLoop (fuel : Nat) : Nat → CState → Except Err CState
  | steps, s =>
    match s.queue with
    | [] => .ok s
    | n :: q =>
      match steps with
      | 0 => .error .diverge
      | steps + 1 => do
        let s := { s with queue := q }
        if s.mdepends.has n then collectLoop fuel steps s
        else
          let (L, o) ← s.lib.getDefault n
          let s := ({ s with lib := L } : CState).specify n o
          let s ← collectIf fuel s o
          collectLoop fuel steps s

/-- licant/cxx_modules.py:346-429: the library afterwards and the list of modules.  `key` are the sort keys that the
modules have from earlier calls. -/
def collect (fuel steps : Nat) (L : Lib) (key : Nat → Nat) (root : Nat) : Except Err (Lib × List Nat) := do
  let s ← collectIf fuel ⟨L, [], [], key, 0⟩ root
  let s ← collectLoop fuel steps s
  pure (s.lib, (s.mdepends.map (·.2)).mergeSort (fun a b => s.key a ≤ s.key b))

end Licant.Modules
