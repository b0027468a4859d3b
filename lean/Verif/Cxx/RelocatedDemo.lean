/-
A C++ project in `/s`, and a copy in `/q/t`: the assumptions of C152 hold.
-/
import Verif.Cxx.Relocated
import Verif.Cxx.FormsDemo

set_option autoImplicit false

namespace Licant.Cxx
open Licant.Py Licant.Core Licant.Make Relation
open Licant.Modules (Val Opts Toolchain Lib IsModule)

/-- the files of the project below `d`, which has been built, and what is above `d`; the dependency file has been written with relative
names -/
def mvSite (d : String) (above : List String) : Site where
  env := cwdEnv d (above ++ [d] ++ ["a.cpp", "h.h", "b", "b/a.d", "b/a.o"].map (fun p => d ++ "/" ++ p))
  lim := 50
  uni := fun _ => false
  file := fun p => if p = "b/a.d" ∨ p = d ++ "/b/a.d" then some "a.o: a.cpp h.h\n".toList else none

def mvS : Site := mvSite "/s" ["/"]
def mvS' : Site := mvSite "/q/t" ["/", "/q"]

/-- the names of the project -/
def mvNames : List String :=
  let rel := ["a.cpp", "h.h", "b", "b/a.d", "b/a.o", "app", "app__module__local_headers__"] ++ licantNames
  rel ++ rel.map (fun p => "/s/" ++ p) ++ ["/s"]

theorem mv_renames : Renames moveS (· ∈ mvNames) mvS.env mvS'.env where
  inj := fun p q hp hq => (by decide +kernel : ∀ p ∈ mvNames, ∀ q ∈ mvNames, moveS p = moveS q → p = q) p hp q hq
  canon := by decide +kernel
  ex := by decide +kernel
  exDir := by decide +kernel
  dir := by decide +kernel
  home := fun p h => ⟨h, rfl⟩
  star := by decide +kernel
  glob := by decide +kernel

def mvKw : Opts := [("sources", .list [.str "a.cpp"]), ("builddir", .str "b")]

def mvLib : Lib :=
  match Lib.empty.module "l.py" "app__module" none false (taskOpts "app" "application" (some "app") mvKw) with
  | .ok l => l
  | .error _ => Lib.empty

def mvR : Opts :=
  match merge stdTools id .merge (setDefaults stdTools []) (mvLib.obj 0).opts with
  | .ok r => r
  | .error _ => []

theorem mv_opts : finalOpts stdTools id 10 10 (fun _ => 0) mvLib "app__module" none (setDefaults stdTools []) =
    .ok (mvLib, mvR) := by
  have hc : Modules.collect 10 10 mvLib (fun _ => 0) 0 = .ok (mvLib, []) := by
    have h : ((mvLib.obj 0).opts.has "mdepends") = false := rfl
    unfold Modules.collect Modules.collectIf
    simp [h, Modules.collectLoop, bind, Except.bind, pure, Except.pure]
  exact finalOpts_of (L1 := mvLib) rfl rfl rfl rfl rfl rfl hc rfl

theorem mv_task {S : Site} (h5 : S.lim = 50) {Q : LReg → Prop} (h : ∃ a c d e,
    modmake S stdTools 10 10 (fun _ => 0) 50 (mvLib, demoReg) "app__module" none (setDefaults stdTools []) = .ok ((a, c), d, e) ∧ Q c) :
    ∃ a c d, task S stdTools 10 10 (fun _ => 0) Lib.empty demoReg "l.py" "app" (some "app") none false "application" mvKw =
      .ok ((a, c), d) ∧ Q c := by
  obtain ⟨a, c, d, e, h2, hQ⟩ := h
  refine ⟨a, c, d, ?_, hQ⟩
  have h1 : Lib.empty.module "l.py" "app__module" none false (taskOpts "app" "application" (some "app") mvKw) = .ok mvLib := rfl
  unfold task prepareTargets
  have h3 : mkOptions stdTools [] = .ok [] := rfl
  have h4 : ([("type", Val.str "application"), ("target", .str ((some "app").getD "app"))] ++ mvKw : Opts) =
    taskOpts "app" "application" (some "app") mvKw := rfl
  have h6 : "app" ++ "__module" = "app__module" := by decide
  rw [if_pos (by decide)]
  simp only [h4, h6, h1, h3, h5, h2, bind, Except.bind]
  rfl

/-- the names that are registered -/
def knows (ns : List String) (L : LReg) : Bool := ns.all fun n => L.m.reg.targets.has n

def mvParts : Parts where
  headers := []
  uis := []
  mocs := []
  us := [("a.cpp", "b/a.o", "b/a.d")]
  depends := []
  extra := []

/-- the hypotheses of `C152_task` hold -/
example : Renames moveS (· ∈ mvNames) mvS.env mvS'.env ∧ mvS'.lim = mvS.lim ∧ mvS'.env.home = mvS.env.home ∧
    Linked "application" executableCommand ∧ LCopied moveS (· ∈ mvNames) demoReg demoReg ∧
    (∃ a c d, task mvS stdTools 10 10 (fun _ => 0) Lib.empty demoReg "l.py" "app" (some "app") none false "application" mvKw =
      .ok ((a, c), d) ∧ knows ["/s/app", "/s/b/a.o", "/s/b/a.d", "b/a.o", "h.h"] c = true) ∧
    (∃ a c d, task mvS' stdTools 10 10 (fun _ => 0) Lib.empty demoReg "l.py" "app" (some "app") none false "application" mvKw =
      .ok ((a, c), d) ∧ knows ["/q/t/app", "/q/t/b/a.o", "/q/t/b/a.d", "b/a.o", "h.h"] c = true) ∧
    finalOpts stdTools mvS.env.home 10 10 (fun _ => 0) mvLib (taskModule "app" "application") none (setDefaults stdTools []) =
      .ok (mvLib, mvR) ∧
    PartsOf mvS mvR mvParts ∧ PartsOf mvS' mvR mvParts ∧
    (∀ m ∈ mvParts.headers, mvS.env.home m.1 = m.1 ∧ mvS.env.home m.2 = m.2) ∧
    (∀ u ∈ mvParts.us, mvS'.headers u.2.2 = mvS.headers u.2.2) ∧
    (∀ n ∈ mvParts.names mvS (taskModule "app" "application" ++ "__local_headers__") ++ ["app"], n ∈ mvNames ∧ moveS n = n) := by
  refine ⟨mv_renames, rfl, rfl, .application, ⟨copied_licantReg (by decide +kernel), fun _ => rfl⟩, ?_, ?_, mv_opts, ?_, ?_, ?_, ?_, ?_⟩
  · refine mv_task rfl (Q := fun L => knows _ L = true) (resultIs_iff.1 ?_)
    rw [modmake]
    have : mvS.env.home = id := rfl
    simp only [this, mv_opts, bind, Except.bind]
    decide +kernel
  · refine mv_task rfl (Q := fun L => knows _ L = true) (resultIs_iff.1 ?_)
    rw [modmake]
    have : mvS'.env.home = id := rfl
    simp only [this, mv_opts, bind, Except.bind]
    decide +kernel
  · refine ⟨"b", [], [], ["a.cpp"], [], [], rfl, rfl, .nil, rfl, rfl, rfl, rfl, rfl, ?_, ?_, ?_, rfl⟩ <;> decide +kernel
  · refine ⟨"b", [], [], ["a.cpp"], [], [], rfl, rfl, .nil, rfl, rfl, rfl, rfl, rfl, ?_, ?_, ?_, rfl⟩ <;> decide +kernel
  · intro m hm; cases hm
  · decide +kernel
  · decide +kernel

end Licant.Cxx
