/-
Two programs in one project: a witness against C115, and an example for `C115_partial`.
-/
import Verif.Cxx.Several

set_option autoImplicit false

namespace Licant.Cxx
open Licant.Py Licant.Core Licant.Make Relation
open Licant.Modules (Val Opts Toolchain Lib IsModule)

/-- what `task` does with a module without submodules -/
theorem task_of {S : Site} {tc : Toolchain} {fuel steps k : Nat} {key : Nat → Nat} {lib lib1 lib2 : Lib} {L L1 L2 : LReg}
    {script name type : String} {target impl : Option String} {default : Bool} {kwargs loc R : Opts} {b : Built}
    {objs : List String} {v : Val} (hty : type ≠ "objects") (hk : S.lim = k + 1)
    (h1 : lib.module script (taskModule name type) impl default (taskOpts name type target kwargs) = .ok lib1)
    (h2 : finalOpts tc S.env.home fuel steps key lib1 (taskModule name type) none (setDefaults tc []) = .ok (lib2, loc))
    (h3 : makeObjects S L (taskModule name type) loc = .ok (L1, objs, R)) (h4 : R.get "modules" = some v)
    (h5 : v.iter = .ok []) (h6 : finishTarget S L1 (objs.map some) R = .ok (L2, b)) :
    task S tc fuel steps key lib L script name target impl default type kwargs = .ok ((lib2, L2), b) := by
  unfold taskModule at h1 h2 h3
  unfold taskOpts at h1
  rw [if_pos hty] at h1 h2 h3
  rw [if_pos hty] at h1
  have h0 : mkOptions tc [] = .ok [] := rfl
  unfold task prepareTargets
  rw [if_pos hty]
  simp only [h1, h0, hk, bind, Except.bind]
  rw [modmake]
  simp only [h2, h3, h4, h5, bind, Except.bind, List.foldlM_nil, pure, Except.pure, List.append_nil, h6]

/-! ### `application("a", target="/b/a", sources=["a.cpp"], builddir="/b", defines=["A"])`, and then the same for `b` with the
definition `B`; or with another build directory -/

def twoCall (name bd df : String) : Call where
  script := "/s/l.py"
  name := name
  target := some (bd ++ "/" ++ name)
  impl := none
  default := false
  type := "application"
  kwargs := [("sources", .list [.str "a.cpp"]), ("builddir", .str bd), ("defines", .list [.str df])]

def twoSite : Site where
  env := listEnv [".", "/", "//", "/s", "/b", "/c", "/s/a.cpp"]
  lim := 50
  uni := fun _ => false
  file := fun _ => none

def libAfter (lib : Lib) (c : Call) : Lib :=
  okD Lib.empty (lib.module c.script c.mod c.impl c.default (taskOpts c.name c.type c.target c.kwargs))

/-- the options of the module that was defined as number `i` -/
def optsAt (lib : Lib) (i : Nat) : Opts := okD [] (merge stdTools id .merge (setDefaults stdTools []) (lib.obj i).opts)

/-- the registry after the compile steps and after the link step -/
def compiledAt (L : LReg) (c : Call) (loc : Opts) : LReg × List String × Opts :=
  okD (demoReg, [], []) (makeObjects twoSite L c.mod loc)

def linkedAt (L : LReg) (c : Call) (loc : Opts) : LReg × Built :=
  okD (demoReg, .objects []) (finishTarget twoSite (compiledAt L c loc).1 ((compiledAt L c loc).2.1.map some)
    (compiledAt L c loc).2.2)

def callA : Call := twoCall "a" "/b" "A"
def callB : Call := twoCall "b" "/b" "B"
def callC : Call := twoCall "b" "/c" "B"

def libA : Lib := libAfter Lib.empty callA
def libB : Lib := libAfter libA callB
def libC : Lib := libAfter libA callC
def optsA : Opts := optsAt libA 0
def optsB : Opts := optsAt libB 1
def optsC : Opts := optsAt libC 1
def regA : LReg := (linkedAt demoReg callA optsA).1
def regB : LReg := (linkedAt regA callB optsB).1
def regC : LReg := (linkedAt regA callC optsC).1

theorem callA_options : callA.Options twoSite stdTools 10 10 (fun _ => 0) Lib.empty libA optsA := by
  have hc : Modules.collect 10 10 libA (fun _ => 0) 0 = .ok (libA, []) := by
    have h : ((libA.obj 0).opts.has "mdepends") = false := rfl
    unfold Modules.collect Modules.collectIf
    simp [h, Modules.collectLoop, bind, Except.bind, pure, Except.pure]
  exact ⟨libA, rfl, finalOpts_of (L1 := libA) rfl rfl rfl rfl rfl rfl hc rfl⟩

theorem callB_options : callB.Options twoSite stdTools 10 10 (fun _ => 0) libA libB optsB := by
  have hc : Modules.collect 10 10 libB (fun _ => 0) 1 = .ok (libB, []) := by
    have h : ((libB.obj 1).opts.has "mdepends") = false := rfl
    unfold Modules.collect Modules.collectIf
    simp [h, Modules.collectLoop, bind, Except.bind, pure, Except.pure]
  exact ⟨libB, rfl, finalOpts_of (L1 := libB) rfl rfl rfl rfl rfl rfl hc rfl⟩

theorem callC_options : callC.Options twoSite stdTools 10 10 (fun _ => 0) libA libC optsC := by
  have hc : Modules.collect 10 10 libC (fun _ => 0) 1 = .ok (libC, []) := by
    have h : ((libC.obj 1).opts.has "mdepends") = false := rfl
    unfold Modules.collect Modules.collectIf
    simp [h, Modules.collectLoop, bind, Except.bind, pure, Except.pure]
  exact ⟨libC, rfl, finalOpts_of (L1 := libC) rfl rfl rfl rfl rfl rfl hc rfl⟩

/-- there are no submodules -/
def noSubs (R : Opts) : Bool :=
  match R.get "modules" with
  | some v => match v.iter with
    | .ok l => l.isEmpty
    | .error _ => false
  | none => false

theorem noSubs_iff {R : Opts} (h : noSubs R = true) : ∃ v, R.get "modules" = some v ∧ v.iter = .ok [] := by
  unfold noSubs at h
  split at h
  · rename_i v hv
    refine ⟨v, hv, ?_⟩
    split at h
    · rename_i l hl
      rw [hl, List.isEmpty_iff.1 h]
    · cases h
  · cases h

theorem call_runs {c : Call} {lib lib2 : Lib} {L : LReg} {loc : Opts} (hty : c.type ≠ "objects")
    (ho : c.Options twoSite stdTools 10 10 (fun _ => 0) lib lib2 loc)
    (h1 : (makeObjects twoSite L c.mod loc).isOk = true)
    (h2 : (finishTarget twoSite (compiledAt L c loc).1 ((compiledAt L c loc).2.1.map some) (compiledAt L c loc).2.2).isOk = true)
    (h3 : noSubs (compiledAt L c loc).2.2 = true) :
    c.run twoSite stdTools 10 10 (fun _ => 0) lib L = .ok ((lib2, (linkedAt L c loc).1), (linkedAt L c loc).2) := by
  obtain ⟨lib1, h4, h5⟩ := ho
  obtain ⟨v, hm, hv⟩ := noSubs_iff h3
  have e1 : makeObjects twoSite L c.mod loc =
        .ok ((compiledAt L c loc).1, (compiledAt L c loc).2.1, (compiledAt L c loc).2.2) := okD_eq h1
  have e2 : finishTarget twoSite (compiledAt L c loc).1 ((compiledAt L c loc).2.1.map some) (compiledAt L c loc).2.2 =
        .ok ((linkedAt L c loc).1, (linkedAt L c loc).2) := okD_eq h2
  exact task_of (k := 49) hty rfl h4 h5 e1 hm hv e2

theorem callA_runs : callA.run twoSite stdTools 10 10 (fun _ => 0) Lib.empty demoReg =
    .ok ((libA, regA), (linkedAt demoReg callA optsA).2) :=
  call_runs (by decide) callA_options (by decide +kernel) (by decide +kernel) (by decide +kernel)

theorem callB_runs : callB.run twoSite stdTools 10 10 (fun _ => 0) libA regA =
    .ok ((libB, regB), (linkedAt regA callB optsB).2) :=
  call_runs (by decide) callB_options (by decide +kernel) (by decide +kernel) (by decide +kernel)

theorem callC_runs : callC.run twoSite stdTools 10 10 (fun _ => 0) libA regA =
    .ok ((libC, regC), (linkedAt regA callC optsC).2) :=
  call_runs (by decide) callC_options (by decide +kernel) (by decide +kernel) (by decide +kernel)

/-- files of a program in `bd` -/
def twoParts (bd : String) : Parts where
  headers := []
  uis := []
  mocs := []
  us := [("/s/a.cpp", bd ++ "/s/a.o", bd ++ "/s/a.d")]
  depends := []
  extra := []

def twoFiles : List String := ["/s/a.cpp", "/b/s/a.o", "/b/s/a.d", "/b/a", "/c/s/a.o", "/c/s/a.d", "/c/b"]

theorem callA_parts : PartsOf twoSite optsA (twoParts "/b") := by
  refine ⟨"/b", [], [], ["/s/a.cpp"], [], [], rfl, rfl, .nil, rfl, rfl, rfl, rfl, rfl, ?_, ?_, ?_, rfl⟩ <;> decide +kernel

theorem callC_parts : PartsOf twoSite optsC (twoParts "/c") := by
  refine ⟨"/c", [], [], ["/s/a.cpp"], [], [], rfl, rfl, .nil, rfl, rfl, rfl, rfl, rfl, ?_, ?_, ?_, rfl⟩ <;> decide +kernel

theorem twoSite_sane : twoSite.env.Sane := listEnv_sane (by decide +kernel) (by decide +kernel)

theorem two_set (n : String) (h : ∀ f ∈ twoFiles, f ≠ n) (h' : n ∉ ["/s", "/b/s", "/b", "/c/s", "/c", "/"]) :
    ∀ f ∈ twoFiles, twoSite.env.canon f ≠ twoSite.env.canon n ∧
      ¬ MissingDir twoSite.env (twoSite.env.canon f) (twoSite.env.canon n) := by
  refine fun f hf => ⟨h f hf, ?_⟩
  have hp : parent f ∈ ["/s", "/b/s", "/b", "/c/s", "/c", "/"] := by revert f; decide +kernel
  rintro ⟨i, _, e⟩
  have := anc_mem (A := ["/s", "/b/s", "/b", "/c/s", "/c", "/"]) (p := f) (by decide +kernel) hp i
  change _ = anc f i at e
  rw [← e] at this
  exact h' this

theorem callA_fit : (twoParts "/b").Fit twoSite demoReg.m callA.lh callA.tgt twoFiles [] where
  room := room_licant (fun _ => rfl) ["/s", "/b/s", "/b", "/c/s", "/c", "/"] (by decide +kernel)
    (by decide +kernel) (by decide +kernel) (by decide +kernel) (by decide) (by decide +kernel)
  files := by decide +kernel
  homes := fun _ _ => ⟨rfl, rfl⟩
  outputs := by decide +kernel
  free := fun p hp => licant_free (fun _ => rfl) (by revert p; decide +kernel)
  raws := by decide +kernel
  ins := by decide +kernel
  extras := by intro f hf; cases hf
  depends := by intro f hf; cases hf
  set := ⟨licant_free (fun _ => rfl) (by decide +kernel), by decide +kernel, by decide +kernel, two_set _ (by decide +kernel) (by decide +kernel)⟩

theorem callA_proper : callA.Proper := ⟨⟨_, .application⟩, Or.inl rfl⟩

/-- the options of the first call -/
def setA : Settings optsA where
  toolchain := stdTools
  cxxstd := "c++17"
  ccstd := "c11"
  debug := "-g"
  optimize := ""
  cxxFlags := ""
  ccFlags := ""
  ldFlags := ""
  incs := []
  defs := ["A"]
  libdirs := []
  libs := []
  scripts := []
  h := ⟨rfl, rfl, rfl, rfl, rfl, rfl, rfl, rfl, rfl, rfl, rfl, rfl, rfl⟩

/-- the words of the command that makes `p` -/
def shownAt (L : LReg) (p : String) : Option (List String) :=
  (L.m.reg.targets.get p).bind fun o => (L.cmd o).map words

theorem shown_names {L : LReg} {p : String} {x : Nat} {cmd : String} (hn : Names twoSite.env L.m p x) (hc : L.cmd x = some cmd) :
    shownAt L p = some (words cmd) := by
  have : L.m.reg.targets.get p = some x := by
    rcases hn p rfl with h | ⟨_, h⟩ <;> exact h
  unfold shownAt
  rw [this]
  simp [hc]

theorem regB_shown : shownAt regB "/b/s/a.o" =
    some ["c++", "-c", "/s/a.cpp", "-o", "/b/s/a.o", "-DB", "-std=c++17", "-g"] := by decide +kernel

theorem callA_made : MadeAsDescribed twoSite stdTools 10 10 (fun _ => 0) callA Lib.empty regA := by
  obtain ⟨_, _, x, _, h⟩ := describe_step twoSite_sane goodD_licantReg callA_proper callA_options callA_parts callA_fit callA_runs
  obtain ⟨h1, _, h2⟩ := h regA .refl
  exact ⟨libA, optsA, _, x, callA_options, callA_parts, h1, h2⟩

theorem callA_spoilt : ¬ MadeAsDescribed twoSite stdTools 10 10 (fun _ => 0) callA Lib.empty regB := by
  rintro ⟨lib2, loc, M, x, h1, h2, _, h3⟩
  obtain ⟨_, rfl⟩ := callA_options.unique h1
  cases callA_parts.unique h2
  obtain ⟨h4, _⟩ := h3 setA "/b" [] rfl rfl (by unfold NoSpace; decide +kernel)
  obtain ⟨xo, y, h5, _, _, h6⟩ := h4 ("/s/a.cpp", "/b/s/a.o", "/b/s/a.d") (by decide +kernel) (by unfold Word NoSpace; decide +kernel)
    (by unfold Word NoSpace; decide +kernel) (by unfold Word NoSpace; decide +kernel)
  obtain ⟨⟨cmd, h7, h8⟩, _⟩ := h6 _ _ _ (Or.inl ⟨by simp only [CxxSource, extOf_iff]; decide +kernel, rfl, rfl, rfl⟩)
  have h9 := shown_names h5 h7
  rw [regB_shown, h8] at h9
  have h10 := Option.some.inj h9
  revert h10
  decide +kernel

/-- C115 is false of the code: two programs with the same build directory that share a source.  After the second is described,
the object file of the first is compiled with the definitions of the second. -/
theorem C115_violated : ∃ (S : Site) (tc : Toolchain) (c1 c2 : Call) (L L1 L2 : LReg) (lib1 lib2 : Lib) (b1 b2 : Built),
    S.env.Sane ∧ GoodD S.env L.m ∧ c1.Proper ∧ c2.Proper ∧
    c1.run S tc 10 10 (fun _ => 0) Lib.empty L = .ok ((lib1, L1), b1) ∧
    c2.run S tc 10 10 (fun _ => 0) lib1 L1 = .ok ((lib2, L2), b2) ∧ c1.tgt ≠ c2.tgt ∧
    MadeAsDescribed S tc 10 10 (fun _ => 0) c1 Lib.empty L1 ∧ ¬ MadeAsDescribed S tc 10 10 (fun _ => 0) c1 Lib.empty L2 :=
  ⟨twoSite, stdTools, callA, callB, demoReg, regA, regB, libA, libB, _, _, twoSite_sane, goodD_licantReg, callA_proper,
    ⟨⟨_, .application⟩, Or.inl rfl⟩, callA_runs, callB_runs, by decide, callA_made, callA_spoilt⟩

/-- with another build directory the second call finds its place -/
theorem callC_fit : (twoParts "/c").Fit twoSite regA.m callC.lh callC.tgt twoFiles [] := by
  obtain ⟨⟨rule, hty⟩, hd⟩ := callA_proper
  obtain ⟨lib1, o, loc', opts, x, L0, L1, R, objs, h0, _, _, h3, h4, h5, h6, _, h8⟩ :=
    task_program twoSite_sane hty hd goodD_licantReg callA_runs
  obtain ⟨_, rfl⟩ := callA_options.unique ⟨lib1, h0, h3⟩
  obtain ⟨hp, _⟩ := h8 _ _ _ callA_parts callA_fit
  have hfree : ∀ p, regA.m.reg.targets.get p = none → Free twoSite.env regA.m p := by
    rintro p hp n o e (h | ⟨_, h⟩)
    · change n = p at e
      rw [e, hp] at h
      cases h
    · change regA.m.reg.targets.get n = _ at h
      change n = p at e
      rw [e, hp] at h
      cases h
  exact {
    room := hp.room
    files := by decide +kernel
    homes := fun _ _ => ⟨rfl, rfl⟩
    outputs := by decide +kernel
    free := fun p hp => hfree p (by revert p; decide +kernel)
    raws := by decide +kernel
    ins := by decide +kernel
    extras := by intro f hf; cases hf
    depends := by intro f hf; cases hf
    set := ⟨hfree _ (by decide +kernel), by decide +kernel, by decide +kernel,
      two_set _ (by decide +kernel) (by decide +kernel)⟩ }

/-- the hypotheses of `C115_partial` hold -/
example : twoSite.env.Sane ∧ GoodD twoSite.env demoReg.m ∧
    Describe twoSite stdTools 10 10 (fun _ => 0) Lib.empty demoReg [callA, callC] libC regC :=
  ⟨twoSite_sane, goodD_licantReg, .snoc (cs := [callA]) (.snoc (cs := []) .nil callA_proper callA_options callA_parts callA_fit callA_runs)
    ⟨⟨_, .application⟩, Or.inl rfl⟩ callC_options callC_parts callC_fit callC_runs⟩

end Licant.Cxx
