/-
Specification of `collect_modules`: C46-C49 and C78.
-/
import Mathlib.Logic.Relation
import Verif.Modules.Registry

set_option autoImplicit false

namespace Licant.Modules
open Licant.Py Relation

/-- the name asked for by an entry of `mdepends` -/
def MDep.name : MDep → String
  | .plain n => n
  | .exact n _ => n

/-- `d` is in the `mdepends` list of the module `m` -/
def Requests (m : Mod) (d : MDep) : Prop :=
  ∃ v l e, m.opts.get "mdepends" = some v ∧ v.iter = .ok l ∧ e ∈ l ∧ mdep e = .ok d

/-- `mdepends`, if there is such an option, can be iterated, and each entry is a name or a pair of a name and an implementation -/
def Readable (m : Mod) : Prop :=
  ∀ v, m.opts.get "mdepends" = some v → ∃ l, v.iter = .ok l ∧ ∀ e ∈ l, ∃ d, mdep e = .ok d

/-- the library is the result of some calls of a script -/
def Declared (L : Lib) : Prop := ∃ ops, Lib.empty.run ops = .ok L

/-- `o` is what `mlibrary.get(n, i)` returns, and nothing changes by asking -/
def Gives (L : Lib) (n : String) (i : Option String) (o : Nat) : Prop := L.get n i = .ok (L, o)

/-- `a` explicitly requests the module object `b` -/
def Explicit (L : Lib) (a b : Nat) : Prop := ∃ n i, Requests (L.obj a) (.exact n i) ∧ Gives L n i b

/-- one step from a module to a collected module that it names -/
def Drags (L : Lib) (res : List Nat) (a b : Nat) : Prop :=
  b ∈ res ∧ ∃ d, Requests (L.obj a) d ∧ d.name = (L.obj b).name

end Licant.Modules
