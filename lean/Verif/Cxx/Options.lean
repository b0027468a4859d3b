/-
Model of the options of C++ modules: the field table, validation and merging of
`licant/cxx_modules.py:15-203`.
-/
import Verif.Modules.Model

set_option autoImplicit false

namespace Licant.Cxx
open Licant.Py Licant.Modules

/-! ### Values -/

/-- `v.__class__.__name__` -/
def Val.cls : Val → String
  | .none => "NoneType"
  | .str _ => "str"
  | .list _ => "list"
  | .tuple _ => "tuple"
  | .tool _ => "toolchain"
  | .sub _ _ => "submodule"
  | .other c => c

/-- `a + b` for the operands that can occur; any other pair raises `TypeError` -/
def Val.add : Val → Val → Except Err Val
  | .list a, .list b => .ok (.list (a ++ b))
  | .tuple a, .tuple b => .ok (.tuple (a ++ b))
  | .str a, .str b => .ok (.str (a ++ b))
  | _, _ => .error .raised

/-- `v[i]` -/
def Val.idx (v : Val) (i : Nat) : Except Err Val :=
  match v with
  | .list l | .tuple l =>
    match l[i]? with
    | some x => .ok x
    | none => .error .raised
  | .str s =>
    match s.toList[i]? with
    | some c => .ok (.str (String.ofList [c]))
    | none => .error .raised
  | _ => .error .raised

/-- `os.path.join(a, b)` -/
def pjoin (a b : String) : String := String.ofList (Path.join a.toList b.toList)

/-- an option of a dictionary, `None` if it is missing (licant/cxx_modules.py:189-192) -/
def given (o : Opts) (k : String) : Val := (o.get k).getD .none

/-! ### The merge functions -/

/-- licant/cxx_modules.py:23-122: the functions named in the table -/
inductive Fn where
  /-- 23-24 -/
  | base
  /-- 27-30 -/
  | loc
  /-- 33-38 -/
  | concat
  /-- 41-44 -/
  | strconcat
  /-- 47-65 -/
  | concatSrc
  /-- 68-84 -/
  | localSrc
  /-- 87-99 -/
  | concatLoc
  /-- 102-109 -/
  | concatLoc2
  /-- 112-113 -/
  | localIf
  /-- 116-122 -/
  | concatSub
deriving DecidableEq, Repr

/-- licant/cxx_modules.py:15-20, class `solver` -/
structure Field where
  type : String
  merge : Fn
  incl : Fn
  default : Val

/-- licant/cxx_modules.py:56-58, 79-81: `os.path.join(tlocal.opts["__dir__"], srcdir, expanduser(p))`.  Anything but
strings raises; path-like objects, which `os.path.join` takes too, are left out. -/
def inSrcdir (home : String → String) (lo : Opts) (srcdir p : Val) : Except Err Val :=
  match lo.get "__dir__", srcdir, p with
  | some (.str d), .str s, .str p => .ok (.str (pjoin (pjoin d s) (home p)))
  | _, _, _ => .error .raised

/-- licant/cxx_modules.py:94-96: `os.path.join(tlocal.opts["__dir__"], expanduser(p))` -/
def inDir (home : String → String) (lo : Opts) (p : Val) : Except Err Val :=
  match lo.get "__dir__", p with
  | some (.str d), .str p => .ok (.str (pjoin d (home p)))
  | _, _ => .error .raised

/-- licant/cxx_modules.py:107-108: `(pl[0], os.path.join(tlocal.opts["__dir__"], pl[1]))` -/
def pairInDir (lo : Opts) (pl : Val) : Except Err Val := do
  let a ← Val.idx pl 0
  let b ← Val.idx pl 1
  match lo.get "__dir__", b with
  | some (.str d), .str p => .ok (.tuple [a, .str (pjoin d p)])
  | _, _ => .error .raised

/-- licant/cxx_modules.py:51-54, 69-72: the `srcdir` option, `""` if missing -/
def srcdirOf (lo : Opts) : Val := (lo.get "srcdir").getD (.str "")

/-- licant/modules.py:137-150, `submodule(l)`: a tuple gives name and implementation, a submodule is copied, a name
stands for itself.  Other values, which would be taken for names and fail later, are refused here. -/
def toSub : Val → Except Err Val
  | .str n => .ok (.sub n none)
  | .tuple (.str n :: .str i :: _) => .ok (.sub n (some i))
  | .tuple (.str n :: .none :: _) => .ok (.sub n none)
  | .sub n i => .ok (.sub n i)
  | _ => .error .raised

/-- licant/cxx_modules.py:23-122: a table function applied to the base value `b` and the value `l` of the merged module
with options `lo`; `home` is `os.path.expanduser` -/
def Fn.app (home : String → String) (dflt b l : Val) (lo : Opts) : Fn → Except Err Val
  | .base => .ok b
  | .loc => match l with
    | .none => .ok dflt
    | l => .ok l
  | .concat =>
    let l := match l with | .none => .list [] | l => l
    let b := match b with | .none => .list [] | b => b
    Val.add b l
  | .strconcat => match l with
    | .none => .ok b
    | l => do Val.add (← Val.add b (.str " ")) l
  | .concatSrc => match l with
    | .none => Val.add b (.list [])
    | l => do Val.add b (.list (← (← l.iter).mapM (inSrcdir home lo (srcdirOf lo))))
  | .localSrc => match l with
    | .none => .ok (.list [])
    | .str s => do return .list (← [Val.str s].mapM (inSrcdir home lo (srcdirOf lo)))
    | l => do return .list (← (← l.iter).mapM (inSrcdir home lo (srcdirOf lo)))
  | .concatLoc => match l with
    | .none => .ok b
    | .str s => do Val.add b (.list (← [Val.str s].mapM (inDir home lo)))
    | l => do Val.add b (.list (← (← l.iter).mapM (inDir home lo)))
  | .concatLoc2 => match l with
    | .none => .ok b
    | l => do Val.add b (.list (← (← l.iter).mapM (pairInDir lo)))
  | .localIf => match l with
    | .none => .ok b
    | l => .ok l
  | .concatSub =>
    let b := match b with | .none => .list [] | b => b
    match l with
    | .none => Val.add b (.list [])
    | l => do Val.add b (.list (← (← l.iter).mapM toSub))

/-! ### The table, validation and merging -/

/-- licant/cxx_modules.py:125-155; `tc` is `default_toolchain()` -/
def table (tc : Toolchain) : Dict String Field := [
  ("srcdir", ⟨"str", .loc, .base, .str "."⟩),
  ("depends", ⟨"list", .loc, .base, .list []⟩),
  ("objects", ⟨"list", .localSrc, .concatSrc, .list []⟩),
  ("sources", ⟨"list", .localSrc, .concatSrc, .list []⟩),
  ("qt_moc", ⟨"list", .localSrc, .concatSrc, .list []⟩),
  ("qt_ui", ⟨"list", .localSrc, .concatSrc, .list []⟩),
  ("libs", ⟨"list", .concat, .concat, .list []⟩),
  ("libdirs", ⟨"list", .concat, .concat, .list []⟩),
  ("target", ⟨"str", .localIf, .base, .str "target"⟩),
  ("include_paths", ⟨"list", .concatLoc, .concatLoc, .list []⟩),
  ("cxxstd", ⟨"str", .localIf, .localIf, .str "c++17"⟩),
  ("ccstd", ⟨"str", .localIf, .localIf, .str "c11"⟩),
  ("cxx_flags", ⟨"str", .strconcat, .strconcat, .str ""⟩),
  ("cc_flags", ⟨"str", .strconcat, .strconcat, .str ""⟩),
  ("ld_flags", ⟨"str", .strconcat, .strconcat, .str ""⟩),
  ("modules", ⟨"list", .loc, .concat, .list []⟩),
  ("type", ⟨"str", .loc, .base, .str "objects"⟩),
  ("builddir", ⟨"str", .localIf, .base, .str "build"⟩),
  ("toolchain", ⟨"toolchain", .localIf, .base, .tool tc⟩),
  ("optimize", ⟨"str", .localIf, .base, .str ""⟩),
  ("include_modules", ⟨"list", .concatSub, .base, .list []⟩),
  ("defines", ⟨"list", .concat, .concat, .list []⟩),
  ("ldscripts", ⟨"list", .concatLoc, .concatLoc, .list []⟩),
  ("local_headers", ⟨"list", .concatLoc2, .concatLoc2, .list []⟩),
  ("mdepends", ⟨"list", .loc, .base, .list []⟩),
  ("debug", ⟨"str", .localIf, .base, .str "-g"⟩)]

/-- licant/modules.py:7 -/
def special : List String := ["__script__", "__dir__"]

/-- licant/cxx_modules.py:162-176, `check` -/
def check (tc : Toolchain) : Opts → Except Err Unit
  | [] => .ok ()
  | (k, v) :: rest =>
    if k ∈ special then check tc rest
    else match (table tc).get k with
      | none => .error .exit
      | some f => if Val.cls v ≠ f.type then .error .exit else check tc rest

/-- licant/cxx_modules.py:199-203, `CXXModuleOptions(**kwargs)` -/
def mkOptions (tc : Toolchain) (kwargs : Opts) : Except Err Opts := do
  check tc kwargs
  return kwargs

/-- licant/cxx_modules.py:178-182, `set_default_if_empty` -/
def setDefaults (tc : Toolchain) (o : Opts) : Opts :=
  (table tc).foldl (fun o p => if o.has p.1 then o else o.set p.1 p.2.default) o

/-- which column of the table `merge` uses -/
inductive Mode where
  | merge
  | incl
deriving DecidableEq, Repr

/-- licant/cxx_modules.py:194, `getattr(self.table[k], fnc)` -/
def Field.fn (f : Field) : Mode → Fn
  | .merge => f.merge
  | .incl => f.incl

/-- licant/cxx_modules.py:184-197: `base.merge(other, fnc)`.  `other` is a `CXXModuleOptions` or a `Module` object; only
its options are used. -/
def merge (tc : Toolchain) (home : String → String) (mode : Mode) (base other : Opts) : Except Err Opts := do
  let res ← base.mapM fun (k, b) =>
    match (table tc).get k with
    | none => .error .raised
    | some f => do
      let v ← (f.fn mode).app home f.default b (given other k) other
      return (k, v)
  mkOptions tc res

end Licant.Cxx
