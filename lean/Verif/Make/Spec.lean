/-
Specification vocabulary for the build properties.
-/
import Verif.Make.Model

set_option autoImplicit false

namespace Licant.Make
open Licant.Py Licant.Core Relation

variable {α : Type}

/-- What the program believes about path `p`: the cached status, or the present one if none is
cached. -/
def view (fs : FS α) (cache : FileCache) (p : String) : Info := (cache.get p).getD (fileinfo fs p)

/-- `o'` is a file or source that `o` depends on, directly or through file sets. -/
inductive InputOf (P : Proj α) (canon : String → String) : Nat → Nat → Prop
  | direct {o o'} : ObjDep canon P.reg o o' → P.kind o' = .file ∨ P.kind o' = .source →
      InputOf P canon o o'
  | through {o s o'} : ObjDep canon P.reg o s → P.kind s = .fileset → InputOf P canon s o' →
      InputOf P canon o o'

/-- Assumptions on a project.  All are properties of the registry alone. -/
structure Sound (P : Proj α) (canon : String → String) : Prop where
  nodup : P.reg.targets.keys.Nodup
  consistent : Consistent P.reg
  acyclic : Acyclic canon P.reg
  upd : ∀ o, Registered P.reg o → P.kind o ≠ .other → (P.reg.obj o).upd = true
  /-- sources and directories depend on nothing but directories -/
  srcDeps : ∀ o o', P.kind o = .source ∨ P.kind o = .dir → ObjDep canon P.reg o o' → P.kind o' = .dir
  /-- files and file sets depend on targets of make.py -/
  fileDeps : ∀ o o', P.kind o = .file ∨ P.kind o = .fileset → ObjDep canon P.reg o o' →
    P.kind o' ≠ .other
  /-- a target that is an ancestor directory of a directory target is a directory target that the
  latter depends on -/
  ancestors : ∀ b a, Registered P.reg b → P.kind b = .dir → Registered P.reg a →
    P.path a ∈ P.parents (P.path b) →
    P.kind a = .fileset ∨ P.kind a = .other ∨
      (P.kind a = .dir ∧ TransGen (ObjDep canon P.reg) b a)

/-- Build commands are functions of the contents of their inputs. -/
def Functional (P : Proj α) (canon : String → String) : Prop :=
  ∀ o f f', (∀ o', InputOf P canon o o' → f (P.path o') = f' (P.path o')) → P.cmd o f = P.cmd o f'

/-- Every write of a build wrote what the command computes from the files as they were at that
moment. -/
def Faithful {P : Proj α} {canon : String → String} {root : Nat} {fs : FS α} {cache : FileCache}
    (B : Invocation P canon root fs cache) (clock : Nat) (tr : List (Ev α)) : Prop :=
  ∀ pre post i v o s, tr = pre ++ .write i v :: post → B.objs[i]? = some o → B.Run clock pre s →
    v = P.cmd o (contents s.fs)

/-- Every build command that reported success has written its target file. -/
def Productive {P : Proj α} {canon : String → String} {root : Nat} {fs : FS α} {cache : FileCache}
    (B : Invocation P canon root fs cache) (tr : List (Ev α)) : Prop :=
  ∀ w i o, Ev.sched (.finish w i .ok) ∈ tr → B.objs[i]? = some o → o ∈ B.commands tr →
    ∃ v, Ev.write i v ∈ tr

/-- The file `o` exists and no input that exists is newer. -/
def Fresh (P : Proj α) (canon : String → String) (fs : FS α) (o : Nat) : Prop :=
  ∃ e, fs (P.path o) = some e ∧
    ∀ o' e', InputOf P canon o o' → fs (P.path o') = some e' → e'.mtime ≤ e.mtime

/-- The object stands for a path in the file system. -/
def IsPath (P : Proj α) (o : Nat) : Prop := P.kind o = .file ∨ P.kind o = .source ∨ P.kind o = .dir

/-- What the program believes about the paths of its targets is true.  In particular: a new process,
whose file cache is empty. -/
def Accurate (P : Proj α) (fs : FS α) (cache : FileCache) : Prop :=
  ∀ o, Registered P.reg o → IsPath P o → view fs cache (P.path o) = fileinfo fs (P.path o)

/-- The target `o` itself is out of date according to the file states `V`. -/
def OutOfDate (P : Proj α) (canon : String → String) (V : String → Info) (o : Nat) : Prop :=
  match P.kind o with
  | .file | .source => P.force o = true ∨ (V (P.path o)).exist = false ∨
      ∃ o', InputOf P canon o o' ∧ (V (P.path o')).mtime > (V (P.path o)).mtime
  | .dir => (V (P.path o)).exist = false
  | .fileset => False
  | .other => P.upd o = .ok true

/-- `o` or something it depends on is out of date. -/
def NeedsWork (P : Proj α) (canon : String → String) (V : String → Info) (o : Nat) : Prop :=
  ∃ o', Closure canon P.reg o o' ∧ OutOfDate P canon V o'

end Licant.Make
