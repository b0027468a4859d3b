/-
`static_and_shared` on a small project: the hypotheses of `C119_partial`, `C119_violated` and `C119_library` hold.
-/
import Verif.Cxx.Both
import Verif.Cxx.SeveralDemo

set_option autoImplicit false

namespace Licant.Cxx
open Licant.Py Licant.Core Licant.Make Relation
open Licant.Modules (Val Opts Toolchain Lib IsModule)

/-- the options of the call, `sources=["a.cpp"], builddir="/b", defines=["A"]` -/
def bothKw : Opts := [("sources", .list [.str "a.cpp"]), ("builddir", .str "/b"), ("defines", .list [.str "A"])]

def bothCall (name type : String) (target : Option String) : Call where
  script := "/s/l.py"
  name := name
  target := target
  impl := none
  default := false
  type := type
  kwargs := bothKw

/-- the registry after a call without submodules, with the options `loc`, and the target of the library -/
def libraryAt (L : LReg) (c : Call) (loc : Opts) : Option (LReg × Nat) :=
  match makeObjects twoSite L c.mod loc with
  | .ok (L1, objs, R) =>
    match noSubs R, finishTarget twoSite L1 (objs.map some) R with
    | true, .ok (L2, .target x) => some (L2, x)
    | _, _ => none
  | .error _ => none

theorem libraryAt_runs {c : Call} {lib lib2 : Lib} {L L' : LReg} {loc : Opts} {x : Nat} (hty : c.type ≠ "objects")
    (ho : c.Options twoSite stdTools 10 10 (fun _ => 0) lib lib2 loc) (h : libraryAt L c loc = some (L', x)) :
    c.run twoSite stdTools 10 10 (fun _ => 0) lib L = .ok ((lib2, L'), .target x) := by
  obtain ⟨lib1, h4, h5⟩ := ho
  unfold libraryAt at h
  split at h
  · rename_i L1 objs R h1
    split at h
    · rename_i L2 y h2 h3
      cases h
      obtain ⟨v, hm, hv⟩ := noSubs_iff h2
      exact task_of (k := 49) hty rfl h4 h5 h1 hm hv h3
    · cases h
  · cases h

/-- the registry after both, and the two targets -/
def bothAt (L : LReg) (name : String) (c1 c2 : Call) (loc1 loc2 : Opts) : Option (LReg × Nat × Nat) :=
  match libraryAt L c1 loc1 with
  | some (L1, a) =>
    match libraryAt L1 c2 loc2 with
    | some (L2, b) =>
      match addFileset twoSite L2 name [(L2.m.reg.obj a).tgt, (L2.m.reg.obj b).tgt] with
      | .ok L3 => some (L3, a, b)
      | .error _ => none
    | none => none
  | none => none

theorem bothAt_runs {n1 n2 name : String} {target : Option String} {lib lib1 lib2 : Lib} {L L' : LReg} {loc1 loc2 : Opts} {a b : Nat}
    (h1 : (bothCall n1 "static_library" target).Options twoSite stdTools 10 10 (fun _ => 0) lib lib1 loc1)
    (h2 : (bothCall n2 "shared_library" target).Options twoSite stdTools 10 10 (fun _ => 0) lib1 lib2 loc2)
    (h : bothAt L name (bothCall n1 "static_library" target) (bothCall n2 "shared_library" target) loc1 loc2 = some (L', a, b)) :
    staticAndShared twoSite stdTools 10 10 (fun _ => 0) (fun _ => 0) lib L "/s/l.py" name n1 n2 target none false bothKw =
      .ok ((lib2, L'), a, b) := by
  unfold bothAt at h
  split at h
  · rename_i L1 a' e1
    split at h
    · rename_i L2 b' e2
      split at h
      · rename_i L3 e3
        cases h
        have r1 : task twoSite stdTools 10 10 (fun _ => 0) lib L "/s/l.py" n1 target none false "static_library" bothKw = _ :=
          libraryAt_runs (by change "static_library" ≠ "objects"; decide) h1 e1
        have r2 : task twoSite stdTools 10 10 (fun _ => 0) lib1 L1 "/s/l.py" n2 target none false "shared_library" bothKw = _ :=
          libraryAt_runs (by change "shared_library" ≠ "objects"; decide) h2 e2
        unfold staticAndShared
        simp only [r1, r2, bind, Except.bind]
        rw [e3]
        rfl
      · cases h
    · cases h
  · cases h

/-- the words of the commands of the given files, and what `name` consists of -/
def bothShown (L : LReg) (name p q : String) : Option (List String) × Option (List String) × Option (List String) :=
  (shownAt L p, shownAt L q, (L.m.reg.targets.get name).map fun o => (L.m.reg.obj o).deps)

/-! ### `static_and_shared("lib", "/b/a.a", "/b/a.so", sources=["a.cpp"], builddir="/b", defines=["A"])` -/

def callS : Call := bothCall "/b/a.a" "static_library" none
def callD : Call := bothCall "/b/a.so" "shared_library" none
def libS : Lib := libAfter Lib.empty callS
def libD : Lib := libAfter libS callD
def optsS : Opts := optsAt libS 0
def optsD : Opts := optsAt libD 1
theorem callS_options : callS.Options twoSite stdTools 10 10 (fun _ => 0) Lib.empty libS optsS := by
  have hc : Modules.collect 10 10 libS (fun _ => 0) 0 = .ok (libS, []) := by
    have h : ((libS.obj 0).opts.has "mdepends") = false := rfl
    unfold Modules.collect Modules.collectIf
    simp [h, Modules.collectLoop, bind, Except.bind, pure, Except.pure]
  exact ⟨libS, rfl, finalOpts_of (L1 := libS) rfl rfl rfl rfl rfl rfl hc rfl⟩

theorem callD_options : callD.Options twoSite stdTools 10 10 (fun _ => 0) libS libD optsD := by
  have hc : Modules.collect 10 10 libD (fun _ => 0) 1 = .ok (libD, []) := by
    have h : ((libD.obj 1).opts.has "mdepends") = false := rfl
    unfold Modules.collect Modules.collectIf
    simp [h, Modules.collectLoop, bind, Except.bind, pure, Except.pure]
  exact ⟨libD, rfl, finalOpts_of (L1 := libD) rfl rfl rfl rfl rfl rfl hc rfl⟩

/-- the call returns; the libraries are made from one object file, and `lib` is the set of both -/
theorem both_runs : ∃ L' a b, staticAndShared twoSite stdTools 10 10 (fun _ => 0) (fun _ => 0) Lib.empty demoReg "/s/l.py" "lib"
      "/b/a.a" "/b/a.so" none none false bothKw = .ok ((libD, L'), a, b) ∧
    bothShown L' "lib" "/b/a.a" "/b/a.so" = (some ["ar", "rcs", "/b/a.a", "/b/s/a.o"],
      some ["c++", "--shared", "-Wl,--start-group", "/b/s/a.o", "-Wl,--end-group", "-o", "/b/a.so"],
      some ["/b/a.a", "/b/a.so"]) := by
  have h : (bothAt demoReg "lib" callS callD optsS optsD).map (fun r => bothShown r.1 "lib" "/b/a.a" "/b/a.so") =
      some (some ["ar", "rcs", "/b/a.a", "/b/s/a.o"],
        some ["c++", "--shared", "-Wl,--start-group", "/b/s/a.o", "-Wl,--end-group", "-o", "/b/a.so"],
        some ["/b/a.a", "/b/a.so"]) := by decide +kernel
  obtain ⟨⟨L', a, b⟩, h1, h2⟩ := Option.map_eq_some_iff.1 h
  exact ⟨L', a, b, bothAt_runs callS_options callD_options h1, h2⟩

theorem callS_parts : PartsOf twoSite optsS (twoParts "/b") := by
  refine ⟨"/b", [], [], ["/s/a.cpp"], [], [], rfl, rfl, .nil, rfl, rfl, rfl, rfl, rfl, ?_, ?_, ?_, rfl⟩ <;> decide +kernel

theorem callD_parts : PartsOf twoSite optsD (twoParts "/b") := by
  refine ⟨"/b", [], [], ["/s/a.cpp"], [], [], rfl, rfl, .nil, rfl, rfl, rfl, rfl, rfl, ?_, ?_, ?_, rfl⟩ <;> decide +kernel

theorem both_fit : BothFit twoSite (twoParts "/b") "/b/a.a" "/b/a.so" ("/b/a.so" ++ "__module" ++ "__local_headers__") "lib" where
  stars := by
    intro f hf
    refine ⟨by revert f; decide +kernel, ?_⟩
    have hp' : parent f ∈ ["/s", "/b/s", "/b", "/"] := by revert f; decide +kernel
    rintro q ⟨i, _, rfl⟩
    have := anc_mem (A := ["/s", "/b/s", "/b", "/"]) (p := f) (by decide +kernel) hp' i
    change '*' ∉ (anc f i).toList
    generalize anc f i = q at *
    revert q
    decide +kernel
  dirs := by
    intro f hf p hp
    have hp' : parent f ∈ ["/s", "/b/s", "/b", "/"] := by revert f; decide +kernel
    rintro ⟨i, _, e⟩
    have := anc_mem (A := ["/s", "/b/s", "/b", "/"]) (p := f) (by decide +kernel) hp' i
    change _ = anc f i at e
    rw [← e] at this
    clear e hf hp'
    revert p
    decide +kernel
  homes := fun _ _ => ⟨rfl, rfl⟩
  outputs := by decide +kernel

/-- the hypotheses of `C119_partial` hold -/
example : twoSite.env.Sane ∧
    (∃ L' a b, staticAndShared twoSite stdTools 10 10 (fun _ => 0) (fun _ => 0) Lib.empty demoReg "/s/l.py" "lib" "/b/a.a" "/b/a.so"
      none none false bothKw = .ok ((libD, L'), a, b)) ∧
    PartsOf twoSite optsS (twoParts "/b") ∧ PartsOf twoSite optsD (twoParts "/b") ∧
    BothFit twoSite (twoParts "/b") "/b/a.a" "/b/a.so" ("/b/a.so" ++ "__module" ++ "__local_headers__") "lib" :=
  ⟨twoSite_sane, let ⟨L', a, b, h, _⟩ := both_runs; ⟨L', a, b, h⟩, callS_parts, callD_parts, both_fit⟩

/-! ### The same with `target="/b/x"` -/

def callS' : Call := bothCall "/b/a.a" "static_library" (some "/b/x")
def callD' : Call := bothCall "/b/a.so" "shared_library" (some "/b/x")
def libS' : Lib := libAfter Lib.empty callS'
def libD' : Lib := libAfter libS' callD'
def optsS' : Opts := optsAt libS' 0
def optsD' : Opts := optsAt libD' 1

theorem callS'_options : callS'.Options twoSite stdTools 10 10 (fun _ => 0) Lib.empty libS' optsS' := by
  have hc : Modules.collect 10 10 libS' (fun _ => 0) 0 = .ok (libS', []) := by
    have h : ((libS'.obj 0).opts.has "mdepends") = false := rfl
    unfold Modules.collect Modules.collectIf
    simp [h, Modules.collectLoop, bind, Except.bind, pure, Except.pure]
  exact ⟨libS', rfl, finalOpts_of (L1 := libS') rfl rfl rfl rfl rfl rfl hc rfl⟩

theorem callD'_options : callD'.Options twoSite stdTools 10 10 (fun _ => 0) libS' libD' optsD' := by
  have hc : Modules.collect 10 10 libD' (fun _ => 0) 1 = .ok (libD', []) := by
    have h : ((libD'.obj 1).opts.has "mdepends") = false := rfl
    unfold Modules.collect Modules.collectIf
    simp [h, Modules.collectLoop, bind, Except.bind, pure, Except.pure]
  exact ⟨libD', rfl, finalOpts_of (L1 := libD') rfl rfl rfl rfl rfl rfl hc rfl⟩

/-- the call returns, but no command makes a static library: `/b/x` is linked as a shared one -/
theorem both_runs' : ∃ L' a b, staticAndShared twoSite stdTools 10 10 (fun _ => 0) (fun _ => 0) Lib.empty demoReg "/s/l.py" "lib"
      "/b/a.a" "/b/a.so" (some "/b/x") none false bothKw = .ok ((libD', L'), a, b) ∧
    bothShown L' "lib" "/b/a.a" "/b/x" = (none,
      some ["c++", "--shared", "-Wl,--start-group", "/b/s/a.o", "-Wl,--end-group", "-o", "/b/x"], some ["/b/x", "/b/x"]) := by
  have h : (bothAt demoReg "lib" callS' callD' optsS' optsD').map (fun r => bothShown r.1 "lib" "/b/a.a" "/b/x") =
      some (none, some ["c++", "--shared", "-Wl,--start-group", "/b/s/a.o", "-Wl,--end-group", "-o", "/b/x"],
        some ["/b/x", "/b/x"]) := by decide +kernel
  obtain ⟨⟨L', a, b⟩, h1, h2⟩ := Option.map_eq_some_iff.1 h
  exact ⟨L', a, b, bothAt_runs callS'_options callD'_options h1, h2⟩

/-- the hypotheses of `C119_violated` hold -/
example : ∃ L' a b, staticAndShared twoSite stdTools 10 10 (fun _ => 0) (fun _ => 0) Lib.empty demoReg "/s/l.py" "lib"
      "/b/a.a" "/b/a.so" (some "/b/x") none false bothKw = .ok ((libD', L'), a, b) ∧
    twoSite.env.canon ((some "/b/x").getD "/b/a.a") = twoSite.env.canon ((some "/b/x").getD "/b/a.so") ∧
    NoStar twoSite.env ((some "/b/x").getD "/b/a.so") ∧ twoSite.env.canon ((some "/b/x").getD "/b/a.so") ≠ "lib" := by
  obtain ⟨L', a, b, h, _⟩ := both_runs'
  refine ⟨L', a, b, h, rfl, ⟨by decide +kernel, ?_⟩, by decide +kernel⟩
  rintro q ⟨i, _, rfl⟩
  have := anc_mem (A := ["/b", "/"]) (p := "/b/x") (by decide +kernel) (by decide +kernel) i
  change '*' ∉ (anc "/b/x" i).toList
  generalize anc "/b/x" i = q at *
  revert q
  decide +kernel

/-! ### `library("/b/a.so", …)` and `library("/b/a.a", shared=False, …)` -/

/-- the hypotheses of `C119_library` hold for both values of `shared` -/
example : ∃ L' b, library twoSite stdTools 10 10 (fun _ => 0) Lib.empty demoReg "/s/l.py" "/b/a.a" false none none false bothKw =
    .ok ((libS, L'), b) := by
  have h : (libraryAt demoReg callS optsS).isSome = true := by decide +kernel
  obtain ⟨⟨L', x⟩, h⟩ := Option.isSome_iff_exists.1 h
  exact ⟨L', _, libraryAt_runs (by decide) callS_options h⟩

def libO : Lib := libAfter Lib.empty callD
def optsO : Opts := optsAt libO 0

example : ∃ L' b, library twoSite stdTools 10 10 (fun _ => 0) Lib.empty demoReg "/s/l.py" "/b/a.so" true none none false bothKw =
    .ok ((libO, L'), b) := by
  have ho : callD.Options twoSite stdTools 10 10 (fun _ => 0) Lib.empty libO optsO := by
    have hc : Modules.collect 10 10 libO (fun _ => 0) 0 = .ok (libO, []) := by
      have h : ((libO.obj 0).opts.has "mdepends") = false := rfl
      unfold Modules.collect Modules.collectIf
      simp [h, Modules.collectLoop, bind, Except.bind, pure, Except.pure]
    exact ⟨libO, rfl, finalOpts_of (L1 := libO) rfl rfl rfl rfl rfl rfl hc rfl⟩
  have h : (libraryAt demoReg callD optsO).isSome = true := by decide +kernel
  obtain ⟨⟨L', x⟩, h⟩ := Option.isSome_iff_exists.1 h
  exact ⟨L', _, libraryAt_runs (by decide) ho h⟩

end Licant.Cxx
