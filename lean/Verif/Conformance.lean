/-
The project's own unit tests (/repo/tests) and some of its examples (/repo/examples), as far as they are about modelled code, put to the model: what a test asserts of
the program is computed in the model, or follows from a theorem, here.  These are checks of the transcription on
a few literals, not proofs of properties: nothing depends on this file, and no claim of MANIFEST.json rests on it.
-/
import Verif.Cxx.ProgramDemo
import Verif.Solver.Props

set_option autoImplicit false

namespace Licant.Conformance
open Licant.Py Licant.Core Licant.Make Relation

/-! ### tests/test_make_mechanic.py -/

/-- 17-32 `test_invert_depends_dict` -/
example : Solver.invertDependsDictionary [("a", ["b", "c"]), ("b", ["c"]), ("c", ["d"]), ("d", [])] =
    .ok [("a", []), ("b", ["a"]), ("c", ["a", "b"]), ("d", ["c"])] := rfl

/-- 34-49 `test_invert_depends_dict_with_cycle` -/
example : Solver.invertDependsDictionary [("a", ["b", "c"]), ("b", ["c"]), ("c", ["d"]), ("d", ["a"])] =
    .ok [("a", ["d"]), ("b", ["a"]), ("c", ["a", "b"]), ("d", ["c"])] := rfl

/-- the targets of 81-87 -/
def five : List Solver.DTarget := [⟨"a", ["b", "c"]⟩, ⟨"b", ["c", "e"]⟩, ⟨"c", []⟩, ⟨"d", []⟩, ⟨"e", []⟩]

/-- 51-92 `test_InverseRecursiveSolver`: the targets are accepted; whenever `exec` with three threads returns and no work
function has returned `False` or raised, all work functions have been executed, and none was called before those of its
dependencies had ended (the test's functions raise otherwise). -/
example : ∃ g, Solver.construct Solver.idOrder 1000 five = .ok g ∧ ∀ tr s, Solver.Exec g 3 tr s → s.returned → s.verdict = true →
    (∀ i < 5, ∃ w, Solver.Ev.finish w i .ok ∈ tr) ∧
    ∀ pre post w t d, tr = pre ++ .start w t :: post → (t, d) ∈ [(0, 1), (0, 2), (1, 2), (1, 4)] →
      ∃ w', Solver.Ev.finish w' d .ok ∈ pre := by
  have hc : Solver.construct Solver.idOrder 1000 five = .ok _ := rfl
  refine ⟨_, hc, ?_⟩
  intro tr s hx hr hv
  refine ⟨fun i hi => ((Solver.C03_true_means_all_done Solver.idOrder_isOrder hc hx hr hv).1 i hi).2, ?_⟩
  intro pre post w t d htr hd
  refine Solver.C01_dependencies_first Solver.idOrder_isOrder hc hx pre post w t d htr ?_
  simp only [List.mem_cons, Prod.mk.injEq, List.not_mem_nil, or_false] at hd
  have den : ∀ nm j, (Solver.namesToDeptargets five).get nm = some j → Solver.Denotes five nm j :=
    fun nm j hh => (Solver.names_get five nm j).1 hh
  rcases hd with ⟨rfl, rfl⟩ | ⟨rfl, rfl⟩ | ⟨rfl, rfl⟩ | ⟨rfl, rfl⟩
  · exact ⟨_, "b", rfl, by decide, den _ _ rfl⟩
  · exact ⟨_, "c", rfl, by decide, den _ _ rfl⟩
  · exact ⟨_, "c", rfl, by decide, den _ _ rfl⟩
  · exact ⟨_, "e", rfl, by decide, den _ _ rfl⟩

/-- and there is such an execution -/
example : ∃ g, Solver.construct Solver.idOrder 1000 five = .ok g ∧ ∃ tr s, Solver.Exec g 3 tr s ∧ s.returned ∧ s.verdict = true := by
  have hc : Solver.construct Solver.idOrder 1000 five = .ok _ := rfl
  refine ⟨_, hc, [.start 0 2, .start 1 3, .start 2 4, .finish 2 4 .ok, .finish 0 2 .ok, .start 0 1, .finish 1 3 .ok, .finish 0 1 .ok,
    .start 2 0, .finish 2 0 .ok], Solver.run_exec _ _ ⟨_, rfl, rfl, rfl⟩⟩

/-- 94-107 `test_uncorrect_task`: `UnknowTargetError` -/
example : Solver.construct Solver.idOrder 1000 [⟨"a", ["b", "c"]⟩, ⟨"b", ["c", "z"]⟩, ⟨"c", []⟩, ⟨"d", []⟩, ⟨"e", []⟩] =
    .error (.unknown "z") := rfl

/-- 109-119, the first `test_ciclyc_task`: `NoOneNonDependableTarget` -/
example : Solver.construct Solver.idOrder 1000 [⟨"a", ["b"]⟩, ⟨"b", ["a"]⟩] = .error .noRoot := rfl

/-- 121-130 `test_ciclyc_task`: `CircularDependencyError` -/
example : ∃ p, Solver.construct Solver.idOrder 1000 [⟨"a", ["b"]⟩, ⟨"b", ["a", "c"]⟩, ⟨"c", []⟩] = .error (.circular p) := ⟨_, rfl⟩

/-! ### tests/test_core.py -/

/-- the target registered in 14 and in 22: a plain `Target` -/
def some_target : Reg := (Core.add Reg.empty ⟨"some_target", [], false, [], "action"⟩).1

/-- 8-16 `test_core_object`: `action=foo(x)` makes the attribute `None`; `do` finds the target and does nothing -/
example : doRef (σ := Nat) id (fun _ => some_target) .ok (fun _ _ => false) (fun _ _ => .ok 1) (some "action") []
    (.name "some_target") 0 = .ok 0 := rfl

/-- 18-24 `test_target`: the default action of a plain target is `action`; calling it gives what the function gives -/
example : doRef (σ := Nat) id (fun _ => some_target) .ok (fun _ a => a == "action")
    (fun k s => if k = ⟨0, "action", []⟩ then .ok 1 else .ok s) none [] (.name "some_target") 0 = .ok 1 := rfl

/-- 26-42 `test_update`: both targets are registered -/
def two : Reg :=
  (Core.add (Core.add Reg.empty ⟨"nonupdated", [], true, [], "recurse_update_get_args"⟩).1
    ⟨"updated", [], true, [], "recurse_update_get_args"⟩).1

/-- 26-42 `test_update`: `update_if_need` calls `update` of the second only -/
example : ∃ m, updateNeeds id two (fun o => .ok (o == 1)) 1000 ⟨fun _ => none, fun _ => none⟩ = .ok m ∧
    work two m.need 0 = .skips ∧ work two m.need 1 = .calls := ⟨_, rfl, rfl, rfl⟩

/-- the files in 63-65 of `test_makecore_touch`: `/tmp/licant/test` was removed -/
def touchEnv : Env := Cxx.listEnv [".", "/", "/tmp", "/tmp/licant"]

/-- 62-69 `test_makecore_touch`: the missing directory is registered, as a directory, once -/
example : ∃ w1 o1 w2 o2, ftargetC touchEnv 1000 ⟨licantReg, noReg⟩ "/tmp/licant/test/a" [] = .ok (w1, o1) ∧
    ftargetC touchEnv 1000 w1 "/tmp/licant/test/d" [] = .ok (w2, o2) ∧
    ∃ o, Core.get touchEnv.canon w2.own.reg "/tmp/licant/test" = .ok o ∧ w2.own.kind o = .dir ∧
      w2.own.reg.targets.map (·.1) = ["/tmp/licant/test", "/tmp/licant/test/a", "/tmp/licant/test/d"] :=
  ⟨_, _, _, _, rfl, rfl, _, rfl, rfl, rfl⟩

/-- the files in 92-95 of `test_copy` -/
def copyEnv : Env := Cxx.listEnv [".", "/", "/tmp", "/tmp/licant", "/tmp/licant/test", "/tmp/licant/test/a.txt"]

/-- 90-109 `test_copy`: the dependencies are as the test asserts -/
theorem test_copy_registers : ∃ w1 o1 w2 o2 w3 o3, sourceC copyEnv 1000 ⟨licantReg, noReg⟩ "/tmp/a.txt" = .ok (w1, o1) ∧
    copyC copyEnv 1000 w1 "/tmp/licant/test/a.txt" "/tmp/licant/test/build/b.txt" [] = .ok (w2, o2) ∧
    copyC copyEnv 1000 w2 "/tmp/licant/test/build/b.txt" "/tmp/licant/test/build/c.txt" [] = .ok (w3, o3) ∧
    (∃ o, Core.get copyEnv.canon w3.own.reg "/tmp/licant/test/build/b.txt" = .ok o ∧
      (w3.own.reg.obj o).deps = ["/tmp/licant/test/a.txt", "/tmp/licant/test/build"]) ∧
    (∃ o, Core.get copyEnv.canon w3.own.reg "/tmp/licant/test/build/c.txt" = .ok o ∧
      (w3.own.reg.obj o).deps = ["/tmp/licant/test/build/b.txt", "/tmp/licant/test/build"]) :=
  ⟨_, _, _, _, _, _, rfl, rfl, rfl, ⟨_, rfl, rfl⟩, _, rfl, rfl⟩

/-! ### tests/test_copy.py -/

def cpEnv : Env := Cxx.listEnv [".", "/", "/tmp", "/tmp/licant", "/tmp/licant/test1.txt"]

/-- 22-26: the target made by `copy` depends on one target, its source -/
theorem cp_registers : ∃ w o, copyC cpEnv 1000 ⟨licantReg, noReg⟩ "/tmp/licant/test1.txt" "/tmp/licant/test21.txt" [] = .ok (w, o) ∧
    (w.own.reg.obj o).deps = ["/tmp/licant/test1.txt"] := ⟨_, _, rfl, rfl⟩

/-- the core in the test -/
def cpReg : MReg :=
  match copyC cpEnv 1000 ⟨licantReg, noReg⟩ "/tmp/licant/test1.txt" "/tmp/licant/test21.txt" [] with
  | .ok (w, _) => w.own
  | .error _ => noReg

/-- `cp` -/
def cpProj : Proj Nat where
  reg := cpReg.reg
  kind := cpReg.kind
  force := fun _ => false
  upd := fun _ => .ok false
  cmd := fun _ f => (f "/tmp/licant/test1.txt").getD 0
  parents := fun _ => []

/-- 18-19: the source was written at time 1 -/
def cpFs : FS Nat := fun p => if p = "/tmp/licant/test1.txt" then some ⟨1, some 0⟩ else none

/-- the file system and the cache after the first `do` (29), which copied the file at time 2: make.py:58 -/
def cpFs2 : FS Nat := setFile cpFs "/tmp/licant/test21.txt" ⟨2, some 0⟩
def cpCache2 : FileCache := [("/tmp/licant/test1.txt", ⟨true, 1⟩), ("/tmp/licant/test21.txt", ⟨true, 2⟩)]

/-- the source is written again at time 3 (46-47) -/
def cpFs3 : FS Nat := setFile cpFs2 "/tmp/licant/test1.txt" ⟨3, some 1⟩

/-- 29: the file is missing, so it is copied (number 1 is the copy, 0 the source) -/
example : ∃ m, updateNeeds cpEnv.canon cpReg.reg (updIf cpProj cpEnv.canon cpFs [] 1000) 1000 ⟨fun _ => none, fun _ => none⟩ = .ok m ∧
    work cpReg.reg m.need 1 = .calls := ⟨_, rfl, rfl⟩

/-- 69-87 `test_double_copy`: the second `do` leaves the file alone -/
example : ∃ m, updateNeeds cpEnv.canon cpReg.reg (updIf cpProj cpEnv.canon cpFs2 cpCache2 1000) 1000 ⟨fun _ => none, fun _ => none⟩ = .ok m ∧
    work cpReg.reg m.need 1 = .skips := ⟨_, rfl, rfl⟩

/-- 43-44: `mtime()` of the source comes from the cache -/
example : Make.mtime cpProj cpEnv.canon cpFs3 1000 0 cpCache2 = .ok (1, cpCache2) := rfl

/-- 53-56: after `update_info()` it is the new one -/
example : ∃ c, Make.mtime cpProj cpEnv.canon cpFs3 1000 0 (updateInfo cpFs3 cpCache2 "/tmp/licant/test1.txt") = .ok (3, c) := ⟨_, rfl⟩

/-- 60: then the file is copied again -/
example : ∃ m, updateNeeds cpEnv.canon cpReg.reg (updIf cpProj cpEnv.canon cpFs3 (updateInfo cpFs3 cpCache2 "/tmp/licant/test1.txt") 1000)
      1000 ⟨fun _ => none, fun _ => none⟩ = .ok m ∧ work cpReg.reg m.need 1 = .calls := ⟨_, rfl, rfl⟩

/-- without `update_info()` it would not be (C74) -/
example : ∃ m, updateNeeds cpEnv.canon cpReg.reg (updIf cpProj cpEnv.canon cpFs3 cpCache2 1000)
      1000 ⟨fun _ => none, fun _ => none⟩ = .ok m ∧ work cpReg.reg m.need 1 = .skips := ⟨_, rfl, rfl⟩

/-! ### tests/test_ftarget.py -/

/-- 9-11: the directory exists and is empty -/
def ftEnv : Env := Cxx.listEnv [".", "/", "/tmp", "/tmp/licant", "/tmp/licant/test"]

/-- the core after 11-18 -/
def ftReg : MReg :=
  match ftargetC ftEnv 1000 ⟨licantReg, noReg⟩ "/tmp/licant/test/1.txt" [] with
  | .ok (w, _) =>
    match ftargetC ftEnv 1000 w "/tmp/licant/test/2.txt" ["/tmp/licant/test/1.txt"] with
    | .ok (w, _) => w.own
    | .error _ => noReg
  | .error _ => noReg

/-- `echo lalala` and `cp` -/
def ftProj : Proj String where
  reg := ftReg.reg
  kind := ftReg.kind
  force := fun _ => false
  upd := fun _ => .ok false
  cmd := fun o f => if o = 0 then "lalala" else (f "/tmp/licant/test/1.txt").getD ""
  parents := fun _ => []

theorem ft_all : ∀ o, o ∈ [0, 1] ↔ Registered ftProj.reg o ∧ (ftProj.reg.obj o).upd = true := by
  intro o
  have ht : ftProj.reg.targets = [("/tmp/licant/test/1.txt", 0), ("/tmp/licant/test/2.txt", 1)] := rfl
  constructor
  · intro h
    simp only [List.mem_cons, List.not_mem_nil, or_false] at h
    rcases h with rfl | rfl
    · exact ⟨⟨"/tmp/licant/test/1.txt", rfl⟩, rfl⟩
    · exact ⟨⟨"/tmp/licant/test/2.txt", rfl⟩, rfl⟩
  · rintro ⟨⟨n, hn⟩, _⟩
    have := Dict.mem_of_get hn
    rw [ht] at this
    simp only [List.mem_cons, Prod.mk.injEq, List.not_mem_nil, or_false] at this ⊢
    omega

def ftB : Invocation ftProj ftEnv.canon 1 (fun _ => none) [] := .of (lim := 10) (lim' := 10) (n := 1) _ ft_all rfl rfl rfl

/-- 20-30: `recurse_update` of the second makes both, with the contents asserted -/
example : ∃ s, ftB.Run 5 [.sched (.start 0 0), .write 0 "lalala", .sched (.finish 0 0 .ok), .sched (.start 0 1), .write 1 "lalala",
      .sched (.finish 0 1 .ok)] s ∧ s.Succeeded ∧ contents s.fs "/tmp/licant/test/1.txt" = some "lalala" ∧
    contents s.fs "/tmp/licant/test/2.txt" = some "lalala" :=
  ⟨_, run_iff.2 rfl, ⟨rfl, rfl⟩, by decide +kernel, by decide +kernel⟩

/-! ### tests/test_default_core.py -/

/-- 13-25: the function `copy` registers the source and the copy in the default core -/
example : ∃ w, copyG cpEnv 1000 ⟨licantReg, noReg⟩ "/tmp/licant/test21.txt" "/tmp/licant/test1.txt" [] false = .ok w ∧
    ∃ o o', Core.get cpEnv.canon w.dflt.reg "/tmp/licant/test21.txt" = .ok o ∧ w.dflt.kind o = .file ∧
      Core.get cpEnv.canon w.dflt.reg "/tmp/licant/test1.txt" = .ok o' ∧ w.dflt.kind o' = .source ∧
      (w.dflt.reg.obj o).deps = ["/tmp/licant/test1.txt"] := ⟨_, rfl, _, _, rfl, rfl, rfl, rfl, rfl⟩

/-! ### tests/install_test.py -/

/-- 20-25: `do` on a list calls the action `build` of each -/
example : doRef (σ := List Core.Call) id (fun _ => two) .ok (fun _ a => a == "build") (fun k s => .ok (s ++ [k])) (some "build") []
    (.list [.obj 0, .obj 1]) [] = .ok [⟨0, "build", []⟩, ⟨1, "build", []⟩] := rfl

/-! ### examples -/

/-- examples/ttt.py: as `test_InverseRecursiveSolver`; examples/sss.py: `a` and `b` depend on each other, so `exec` is not reached -/
example : ∃ p, Solver.construct Solver.idOrder 1000 [⟨"a", ["b"]⟩, ⟨"b", ["a", "c"]⟩, ⟨"c", []⟩] = .error (.circular p) := ⟨_, rfl⟩

/-- the directory of examples/copy and examples/copyfileset -/
def exEnv : Env := Cxx.listEnv [".", "/", "/x", "/x/a.txt"]

/-- examples/copy/copytest.py:11-14 and examples/copyfileset/copytest.py:12-16 -/
def exCalls : List Make.Call := [.source "/x/a.txt", .copy "/x/a.txt" "/x/build/b.txt" [], .copy "/x/build/b.txt" "/x/build/c.txt" [],
  .copy "/x/build/b.txt" "/x/build/d.txt" [], .copy "/x/build/b.txt" "/x/build/f.txt" []]

/-- each copy depends on its source and on the missing directory, which is registered once -/
example : ∃ w, exCalls.foldlM (call exEnv 1000) ⟨licantReg, noReg⟩ = .ok w ∧
    w.own.reg.targets.map (fun p => (p.1, (w.own.reg.obj p.2).deps, w.own.kind p.2)) =
      [("/x/a.txt", [], .source), ("/x/build", [], .dir), ("/x/build/b.txt", ["/x/a.txt", "/x/build"], .file),
       ("/x/build/c.txt", ["/x/build/b.txt", "/x/build"], .file), ("/x/build/d.txt", ["/x/build/b.txt", "/x/build"], .file),
       ("/x/build/f.txt", ["/x/build/b.txt", "/x/build"], .file)] := ⟨_, rfl, by decide +kernel⟩

/-- examples/updateble/test.py: three targets without conditions -/
def upReg : Reg :=
  (Core.add (Core.add (Core.add Reg.empty ⟨"copy", [], true, [], "recurse_update_get_args"⟩).1
    ⟨"hello_world_0", [], true, [], "recurse_update_get_args"⟩).1
    ⟨"hello_world_1", ["hello_world_0", "copy"], true, [], "recurse_update_get_args"⟩).1

/-- 52: all three are updated, the last one after the others: the solver gets them with these dependencies -/
example : ∃ m objs g n, updateNeeds id upReg (fun _ => .ok true) 1000 ⟨fun _ => none, fun _ => none⟩ = .ok m ∧
    (∀ o ∈ [0, 1, 2], work upReg m.need o = .calls) ∧
    recurseUpdate id upReg id Solver.idOrder 1000 [] none 2 (some 2) =
      .ok (objs, [⟨"copy", []⟩, ⟨"hello_world_0", []⟩, ⟨"hello_world_1", ["hello_world_0", "copy"]⟩], g, n) := by
  refine ⟨_, _, _, _, rfl, by decide +kernel, rfl⟩

end Licant.Conformance
