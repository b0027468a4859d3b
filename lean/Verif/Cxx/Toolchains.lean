/-
Which toolchain is used: model of the options `--clang_toolchain` and `--gcc_toolchain` (licant/cli.py:52-73,
licant/cxx_make.py:8-81) and C111.
-/
import Verif.Cxx.Compile

set_option autoImplicit false

namespace Licant.Cxx
open Licant.Py Licant.Core Licant.Make Relation
open Licant.Modules (Val Opts Toolchain Lib IsModule)

/-! ### Model -/

/-- licant/cxx_make.py:48-57 `gcc_toolchain(prefix)` -/
def gccTools (pre : String) : Toolchain := ⟨pre ++ "g++", pre ++ "gcc", pre ++ "ar", some "moc", some "uic"⟩

/-- licant/cxx_make.py:60-69 `clang_toolchain()` -/
def clangTools : Toolchain := ⟨"clang++", "clang", "ar", some "moc", some "uic"⟩

/-- licant/cxx_make.py:71-81 `default_toolchain()`; the argument is the global `DEFAULT_TOOLCHAIN` -/
def defaultToolchain (g : String) : Except Modules.Err Toolchain :=
  if g = "clang" then .ok clangTools
  else if g = "gcc" then .ok (gccTools "")
  else if g = "std" then .ok stdTools
  else .error .raised

/-- licant/cli.py:52-53: the two options as parsed -/
structure ToolFlags where
  clang : Bool := false
  gcc : Bool := false
deriving DecidableEq

/-- What a script has set up so far: the global `DEFAULT_TOOLCHAIN` (licant/cxx_make.py:8), the global `opts` (licant/cli.py:16,
as far as toolchains are concerned), the modules and the targets. -/
structure Sess where
  tools : String
  opts : Option ToolFlags
  lib : Lib
  L : LReg

/-- One thing that a script does. -/
inductive Act where
  /-- `application(...)`, `shared_library(...)`, `static_library(...)` or `objects(...)` (licant/cxx_modules.py:545-579) -/
  | task (fuel steps : Nat) (key : Nat → Nat) (script name type : String) (target impl : Option String) (default : Bool)
      (kwargs : Opts)
  /-- `licant.cli.parse(argv)` by the script, or at the beginning of `cliexecute` (licant/cli.py:139); the argument is what
  `argv` says -/
  | parse (f : ToolFlags)
  /-- anything else that does not concern toolchains, such as the declaration of modules and other targets -/
  | other (act : Lib × LReg → Except Modules.Err (Lib × LReg))

/-- licant/cli.py:60-73 `parse`; licant/cxx_make.py:10-12 `set_default_toolchain` -/
def parseTools (s : Sess) (f : ToolFlags) : Sess :=
  let f := s.opts.getD f
  let t := if f.clang then "clang" else s.tools
  let t := if f.gcc then "gcc" else t
  { s with tools := t, opts := some f }

/-- One step of a script.  Modules and options without a toolchain of their own get the default toolchain of that moment
(licant/cxx_modules.py:145, 182-186). -/
def Act.run (S : Site) (s : Sess) : Act → Except Modules.Err Sess
  | .task fuel steps key script name type target impl default kwargs => do
    let tc ← defaultToolchain s.tools
    let ((lib, L), _) ← Cxx.task S tc fuel steps key s.lib s.L script name target impl default type kwargs
    return { s with lib := lib, L := L }
  | .parse f => return parseTools s f
  | .other act => do
    let (lib, L) ← act (s.lib, s.L)
    return { s with lib := lib, L := L }

/-- a script -/
def runScript (S : Site) (s : Sess) (l : List Act) : Except Modules.Err Sess := l.foldlM (Act.run S) s

/-- the state after `import licant` (licant/cxx_make.py:8, licant/cli.py:16) -/
def Sess.start (lib : Lib) (L : LReg) : Sess := ⟨"std", none, lib, L⟩

/-! ### Specification -/

/-- the compiler for C++, the compiler for C and the archiver that the options ask for -/
def ToolFlags.asks (f : ToolFlags) : String × String × String :=
  if f.gcc then ("g++", "gcc", "ar") else if f.clang then ("clang++", "clang", "ar") else ("c++", "cc", "ar")

/-- the options of the first command line that a script looks at; none if it looks at none -/
def firstFlags : List Act → ToolFlags
  | [] => {}
  | .parse f :: _ => f
  | _ :: l => firstFlags l

/-- The commands of the files of an application or library begin with the given programs: the compiler for C++, the compiler
for C and the archiver.  The C++ compiler also links applications and shared libraries. -/
def Runs (S : Site) (L : LReg) (type tgt : String) (M : Parts) {loc : Opts} (T : Settings loc)
    (t : String × String × String) : Prop :=
  (∀ u ∈ M.us, Word u.1 → Word (S.env.canon u.2.1) → Word (S.env.canon u.2.2) →
    ∃ xo y, Names S.env L.m u.2.1 xo ∧ Names S.env L.m u.2.2 y ∧
    ∀ z ∈ [xo, y],
      (CxxSource u.1 none → ∃ cmd, L.cmd z = some cmd ∧ (words cmd).head? = some t.1) ∧
      (CSource u.1 none → ∃ cmd, L.cmd z = some cmd ∧ (words cmd).head? = some t.2.1)) ∧
  (Word (S.env.canon tgt) → (∀ p ∈ M.objects, Word p) → (∀ d ∈ T.libdirs, NoSpace (S.env.home d)) →
    (∀ l ∈ T.libs ++ T.scripts, NoSpace l) →
    ∃ x cmd, L.cmd x = some cmd ∧ Names S.env L.m tgt x ∧
    (type ≠ "static_library" → (words cmd).head? = some t.1) ∧
    (type = "static_library" → (words cmd).head? = some t.2.2))

def Act.IsParse : Act → Prop
  | .parse _ => True
  | _ => False

/-! ### Proofs -/

/-- the toolchain that the options ask for -/
def ToolFlags.tools (f : ToolFlags) : Toolchain :=
  if f.gcc then gccTools "" else if f.clang then clangTools else stdTools

theorem tools_asks (f : ToolFlags) : (f.tools.cxx, f.tools.cc, f.tools.ar) = f.asks := by
  obtain ⟨c, g⟩ := f
  cases c <;> cases g <;> rfl

/-- the global after the options were looked at -/
def ToolFlags.global (f : ToolFlags) : String := if f.gcc then "gcc" else if f.clang then "clang" else "std"

theorem default_global (f : ToolFlags) : defaultToolchain f.global = .ok f.tools := by
  obtain ⟨c, g⟩ := f
  cases c <;> cases g <;> rfl

theorem run_global {S : Site} {s s' : Sess} {a : Act} (h : a.run S s = .ok s') (ha : ¬ a.IsParse) :
    s'.tools = s.tools ∧ s'.opts = s.opts := by
  cases a with
  | parse f => exact absurd trivial ha
  | task fuel steps key script name type target impl default kwargs =>
    simp only [Act.run, bind, Except.bind] at h
    split at h
    · cases h
    split at h
    · cases h
    cases h
    exact ⟨rfl, rfl⟩
  | other act =>
    simp only [Act.run, bind, Except.bind] at h
    split at h
    · cases h
    cases h
    exact ⟨rfl, rfl⟩

theorem parse_again {S : Site} {l : List Act} : ∀ {s s' : Sess} {f : ToolFlags}, runScript S s l = .ok s' →
    s.opts = some f → s.tools = f.global → s'.opts = some f ∧ s'.tools = f.global := by
  induction l with
  | nil =>
    intro s s' f h h1 h2
    cases h
    exact ⟨h1, h2⟩
  | cons a l ih =>
    intro s s' f h h1 h2
    unfold runScript at h
    simp only [List.foldlM_cons, bind, Except.bind] at h
    split at h
    · cases h
    rename_i s1 hs
    cases a with
    | parse f' =>
      cases hs
      refine ih h (by simp [parseTools, h1]) ?_
      simp only [parseTools, h1, h2, Option.getD_some, ToolFlags.global]
      cases f.gcc <;> cases f.clang <;> rfl
    | task fuel steps key script name type target impl default kwargs =>
      obtain ⟨h3, h4⟩ := run_global hs id
      exact ih h (h4.trans h1) (h3.trans h2)
    | other act =>
      obtain ⟨h3, h4⟩ := run_global hs id
      exact ih h (h4.trans h1) (h3.trans h2)

/-- the default toolchain after a script -/
theorem tools_after {S : Site} {lib : Lib} {L : LReg} {l : List Act} {s : Sess}
    (h : runScript S (.start lib L) l = .ok s) : s.tools = (firstFlags l).global := by
  have : ∀ (l : List Act) (s0 : Sess), runScript S s0 l = .ok s → s0.tools = "std" → s0.opts = none →
      s.tools = (firstFlags l).global := by
    intro l
    induction l with
    | nil => intro s0 h h1 _; cases h; exact h1
    | cons a l ih =>
      intro s0 h h1 h2
      unfold runScript at h
      simp only [List.foldlM_cons, bind, Except.bind] at h
      split at h
      · cases h
      rename_i s1 hs
      cases a with
      | parse f =>
        cases hs
        refine (parse_again h (f := f) (by simp [parseTools, h2]) ?_).2
        simp only [parseTools, h1, h2, Option.getD_none, ToolFlags.global]
      | task fuel steps key script name type target impl default kwargs =>
        obtain ⟨h3, h4⟩ := run_global hs id
        exact ih s1 h (h3.trans h1) (h4.trans h2)
      | other act =>
        obtain ⟨h3, h4⟩ := run_global hs id
        exact ih s1 h (h3.trans h1) (h4.trans h2)
  exact this l _ h rfl rfl

theorem runScript_append {S : Site} {s : Sess} (l m : List Act) :
    runScript S s (l ++ m) = (runScript S s l).bind fun s => runScript S s m := by
  unfold runScript
  rw [List.foldlM_append]
  rfl

/-- the toolchain in the final options of a module that was just declared without one -/
theorem finalOpts_tools {S : Site} {tc : Toolchain} {fuel steps : Nat} {key : Nat → Nat} {lib1 lib' : Lib}
    {script n i : String} {kw loc : Opts} {o : Nat} (hg : lib1.get n none = .ok (lib1, o))
    (hm : IsModule (lib1.obj o) n i script kw) (hk : kw.get "toolchain" = none)
    (h : finalOpts tc S.env.home fuel steps key lib1 n none (setDefaults tc []) = .ok (lib', loc)) :
    loc.get "toolchain" = some (.tool tc) := by
  obtain ⟨L1, o', hg', hs⟩ := C81_settings h
  rw [hg] at hg'
  cases hg'
  have hb : (setDefaults tc []).get "toolchain" = some (.tool tc) := by
    have h : ∀ k, (setDefaults tc []).get k = ((table tc).get k).map (·.default) := fun k => defaults_get _ [] k rfl
    rw [h]
    rfl
  rw [hs "toolchain" (by simp) _ hb, orElse, given, hm.opts "toolchain" (by decide) (by decide), hk]
  rfl

/-- the toolchain in the final options of a module that was just declared with one -/
theorem finalOpts_given {S : Site} {tc tc' : Toolchain} {fuel steps : Nat} {key : Nat → Nat} {lib1 lib' : Lib}
    {script n i : String} {kw loc : Opts} {o : Nat} (hg : lib1.get n none = .ok (lib1, o))
    (hm : IsModule (lib1.obj o) n i script kw) (hk : kw.get "toolchain" = some (.tool tc'))
    (h : finalOpts tc S.env.home fuel steps key lib1 n none (setDefaults tc []) = .ok (lib', loc)) :
    loc.get "toolchain" = some (.tool tc') := by
  obtain ⟨L1, o', hg', hs⟩ := C81_settings h
  rw [hg] at hg'
  cases hg'
  have hb : (setDefaults tc []).get "toolchain" = some (.tool tc) := by
    have h : ∀ k, (setDefaults tc []).get k = ((table tc).get k).map (·.default) := fun k => defaults_get _ [] k rfl
    rw [h]
    rfl
  rw [hs "toolchain" (by simp) _ hb, orElse, given, hm.opts "toolchain" (by decide) (by decide), hk]
  rfl

theorem Commands.runs {S : Site} {L' : LReg} {type tgt : String} {M : Parts} {loc : Opts} {T : Settings loc} {bd : String}
    {uis : List String} {x : Nat} {rule : String → List String → CxxOpts → Except Modules.Err String} (hty : Linked type rule)
    (h5 : Commands S L' type tgt M T bd uis x) {t : String × String × String}
    (a1 : T.toolchain.cxx = t.1) (a2 : T.toolchain.cc = t.2.1) (a3 : T.toolchain.ar = t.2.2)
    (w : words t.1 = [t.1] ∧ words t.2.1 = [t.2.1] ∧ words t.2.2 = [t.2.2]) : Runs S L' type tgt M T t := by
  obtain ⟨k1, k2⟩ := h5
  rw [a1, a2] at k1
  rw [a1, a3] at k2
  constructor
  · intro u hu' w1 w2 w3
    obtain ⟨xo, y, n1, n2, -, hc⟩ := k1 u hu' w1 w2 w3
    refine ⟨xo, y, n1, n2, fun z hz => ⟨fun hs => ?_, fun hs => ?_⟩⟩
    · obtain ⟨⟨c1, e1, e2⟩, c3, e3, e4⟩ := hc _ _ _ (Or.inl ⟨hs, rfl, rfl, rfl⟩)
      rcases List.mem_cons.1 hz with rfl | hz
      · exact ⟨c1, e1, by rw [e2, w.1]; rfl⟩
      · rcases List.mem_singleton.1 hz with rfl
        exact ⟨c3, e3, by rw [e4, w.1]; rfl⟩
    · obtain ⟨⟨c1, e1, e2⟩, c3, e3, e4⟩ := hc _ _ _ (Or.inr ⟨hs, rfl, rfl, rfl⟩)
      rcases List.mem_cons.1 hz with rfl | hz
      · exact ⟨c1, e1, by rw [e2, w.2.1]; rfl⟩
      · rcases List.mem_singleton.1 hz with rfl
        exact ⟨c3, e3, by rw [e4, w.2.1]; rfl⟩
  · intro w1 w2 w3 w4
    obtain ⟨hn, cmd, e1, e2, e3, e4⟩ := k2 w1 w2 w3 w4
    refine ⟨x, cmd, e1, hn, fun hne => ?_, fun he => by rw [e4 he, w.2.2]; rfl⟩
    cases hty
    · rw [e2 rfl, w.1]; rfl
    · rw [e3 rfl, w.1]; rfl
    · exact absurd rfl hne

/-- **C111**, what holds: an application or library that a script describes without a toolchain is compiled and linked with the
toolchain that the options of the first command line ask for which the script has looked at *before* (the standard one if it
has looked at none).
Missing: the options of a command line that is looked at later, as by `cliexecute` at the end of the script
(`C111_violated`). -/
theorem C111_partial {S : Site} {lib : Lib} {L : LReg} {l : List Act} {s s' : Sess} {fuel steps : Nat} {key : Nat → Nat}
    {script name type : String} {target impl : Option String} {default : Bool} {kwargs : Opts}
    {rule : String → List String → CxxOpts → Except Modules.Err String} (hE : S.env.Sane)
    (hty : Linked type rule) (hd : impl = none ∨ default = true) (hk : kwargs.get "toolchain" = none)
    (hl : runScript S (.start lib L) l = .ok s) (hg : GoodD S.env s.L.m)
    (h : (Act.task fuel steps key script name type target impl default kwargs).run S s = .ok s') :
    ∃ tc lib1 o loc,
      IsModule (lib1.obj o) (taskModule name type) (impl.getD "__default__") script (taskOpts name type target kwargs) ∧
      lib1.get (taskModule name type) none = .ok (lib1, o) ∧
      finalOpts tc S.env.home fuel steps key lib1 (taskModule name type) none (setDefaults tc []) = .ok (s'.lib, loc) ∧
      ∀ M F A, PartsOf S loc M → M.Fit S s.L.m (taskModule name type ++ "__local_headers__") (target.getD name) F A →
      ∀ (T : Settings loc) (bd : String) (uis : List String), text loc "builddir" = .ok bd → texts loc "qt_ui" = .ok uis →
        (∀ i ∈ T.incs ++ T.defs ++ [bd, pjoin bd "ui"], NoSpace i) →
        Runs S s'.L type (target.getD name) M T (firstFlags l).asks := by
  have ht := tools_after hl
  simp only [Act.run, bind, Except.bind, ht, default_global] at h
  split at h
  · cases h
  rename_i r hr
  obtain ⟨⟨lib', L'⟩, b⟩ := r
  cases h
  obtain ⟨lib1, o, loc, x, _, h1, h2, h3, -, h5⟩ := C110_commands hE hty hd hg hr
  have htc := finalOpts_tools h2 h1 (by rw [taskOpts_get (by decide) (by decide)]; exact hk) h3
  refine ⟨_, lib1, o, loc, h1, h2, h3, fun M F A hM hF T bd uis hbd hu hsp => ?_⟩
  have hT : T.toolchain = (firstFlags l).tools := by
    have := T.h.1
    rw [htc] at this
    simpa using this.symm
  have ha := tools_asks (firstFlags l)
  refine (h5 M F A hM hF T bd uis hbd hu hsp).runs hty (by rw [hT, ← ha]) (by rw [hT, ← ha]) (by rw [hT, ← ha]) ?_
  obtain ⟨c, g⟩ := firstFlags l
  cases c <;> cases g <;> decide +kernel

/-- **C117**: an application or library described with `toolchain=gcc_toolchain(prefix)` is compiled, linked and archived with
the programs of that name with the prefix, whatever the script has done before, and whatever command line it has looked at. -/
theorem C117_given {S : Site} {s s' : Sess} {fuel steps : Nat} {key : Nat → Nat}
    {script name type pre : String} {target impl : Option String} {default : Bool} {kwargs : Opts}
    {rule : String → List String → CxxOpts → Except Modules.Err String} (hE : S.env.Sane)
    (hty : Linked type rule) (hd : impl = none ∨ default = true)
    (hk : kwargs.get "toolchain" = some (.tool (gccTools pre))) (hpre : NoSpace pre) (hg : GoodD S.env s.L.m)
    (h : (Act.task fuel steps key script name type target impl default kwargs).run S s = .ok s') :
    ∃ tc lib1 o loc,
      IsModule (lib1.obj o) (taskModule name type) (impl.getD "__default__") script (taskOpts name type target kwargs) ∧
      lib1.get (taskModule name type) none = .ok (lib1, o) ∧
      finalOpts tc S.env.home fuel steps key lib1 (taskModule name type) none (setDefaults tc []) = .ok (s'.lib, loc) ∧
      ∀ M F A, PartsOf S loc M → M.Fit S s.L.m (taskModule name type ++ "__local_headers__") (target.getD name) F A →
      ∀ (T : Settings loc) (bd : String) (uis : List String), text loc "builddir" = .ok bd → texts loc "qt_ui" = .ok uis →
        (∀ i ∈ T.incs ++ T.defs ++ [bd, pjoin bd "ui"], NoSpace i) →
        Runs S s'.L type (target.getD name) M T (pre ++ "g++", pre ++ "gcc", pre ++ "ar") := by
  simp only [Act.run, bind, Except.bind] at h
  split at h
  · cases h
  split at h
  · cases h
  rename_i r hr
  obtain ⟨⟨lib', L'⟩, b⟩ := r
  cases h
  obtain ⟨lib1, o, loc, x, _, h1, h2, h3, -, h5⟩ := C110_commands hE hty hd hg hr
  have htc := finalOpts_given h2 h1 (by rw [taskOpts_get (by decide) (by decide)]; exact hk) h3
  refine ⟨_, lib1, o, loc, h1, h2, h3, fun M F A hM hF T bd uis hbd hu hsp => ?_⟩
  have hT : T.toolchain = gccTools pre := by
    have := T.h.1
    rw [htc] at this
    simpa using this.symm
  have hw : ∀ p : String, p ≠ "" ∧ ' ' ∉ p.toList → words (pre ++ p) = [pre ++ p] := fun p hp =>
    words_word ⟨fun e => hp.1 (by simpa using (congrArg String.toList e) : pre = "" ∧ p = "").2, by
      unfold NoSpace at *; simp [hpre, hp.2]⟩
  exact (h5 M F A hM hF T bd uis hbd hu hsp).runs hty (by rw [hT]; rfl) (by rw [hT]; rfl) (by rw [hT]; rfl)
    ⟨hw _ (by decide), hw _ (by decide), hw _ (by decide)⟩

/-- looking at a command line changes no target, whatever the command line says -/
theorem parse_last {S : Site} {s0 s : Sess} {l : List Act} (h : runScript S s0 l = .ok s) (f : ToolFlags) :
    ∃ s', runScript S s0 (l ++ [.parse f]) = .ok s' ∧ s'.L = s.L ∧ s'.lib = s.lib := by
  rw [runScript_append, h]
  exact ⟨_, rfl, rfl, rfl⟩

/-- the script of the example of C110 -/
def incAct : Act := .task 10 10 (fun _ => 0) "/s/l.py" "app" "application" (some "/b/app") none false incKw

/-- the targets of the two files of the example and the first words of their commands -/
def incShown (L : LReg) : Option (String × String) :=
  match Core.get incSite.env.canon L.m.reg "/b/s/a.o", Core.get incSite.env.canon L.m.reg "/b/app" with
  | .ok xo, .ok x =>
    match L.cmd xo, L.cmd x with
    | some c1, some c2 =>
      match (words c1).head?, (words c2).head? with
      | some w1, some w2 => some (w1, w2)
      | _, _ => none
    | _, _ => none
  | _, _ => none

theorem incShown_some {L : LReg} {w1 w2 : String} (h : incShown L = some (w1, w2)) :
    ∃ xo x c1 c2, Resolves incSite.env.canon L.m.reg "/b/s/a.o" xo ∧ Resolves incSite.env.canon L.m.reg "/b/app" x ∧
      L.cmd xo = some c1 ∧ (words c1).head? = some w1 ∧ L.cmd x = some c2 ∧ (words c2).head? = some w2 := by
  unfold incShown at h
  split at h
  · rename_i xo x h1 h2
    split at h
    · rename_i c1 c2 h3 h4
      split at h
      · rename_i v1 v2 h5 h6
        cases h
        exact ⟨xo, x, c1, c2, get_ok.1 h1, get_ok.1 h2, h3, h5, h4, h6⟩
      · cases h
    · cases h
  · cases h

/-- the call of the example returns; both commands begin with `c++` -/
theorem incDemo_shown : ∃ lib L b, task incSite stdTools 10 10 (fun _ => 0) Lib.empty demoReg "/s/l.py" "app" (some "/b/app") none
    false "application" incKw = .ok ((lib, L), b) ∧ incShown L = some ("c++", "c++") := by
  have h1 : Lib.empty.module "/s/l.py" "app__module" none false (taskOpts "app" "application" (some "/b/app") incKw) =
    .ok incLib := rfl
  have h2 : ∃ a c d e, modmake incSite stdTools 10 10 (fun _ => 0) 50 (incLib, demoReg) "app__module" none
      (setDefaults stdTools []) = .ok ((a, c), d, e) ∧ incShown c = some ("c++", "c++") := by
    have : (match modmake incSite stdTools 10 10 (fun _ => 0) 50 (incLib, demoReg) "app__module" none
        (setDefaults stdTools []) with
      | .ok ((_, c), _, _) => incShown c
      | .error _ => none) = some ("c++", "c++") := by
      rw [modmake]
      have : incSite.env.home = id := rfl
      simp only [this, incDemo_opts, bind, Except.bind]
      decide +kernel
    split at this
    · exact ⟨_, _, _, _, by assumption, this⟩
    · cases this
  obtain ⟨a, c, d, e, h2, h7⟩ := h2
  refine ⟨a, c, d, ?_, h7⟩
  unfold task prepareTargets
  have h3 : mkOptions stdTools [] = .ok [] := rfl
  have h4 : ([("type", Val.str "application"), ("target", .str ((some "/b/app").getD "app"))] ++ incKw : Opts) =
    taskOpts "app" "application" (some "/b/app") incKw := rfl
  have h5 : incSite.lim = 50 := rfl
  have h6 : "app" ++ "__module" = "app__module" := by decide
  rw [if_pos (by decide)]
  simp only [h4, h6, h1, h3, h5, h2, bind, Except.bind]
  rfl

/-- **C111** is false of the code.
First, for every script that describes its targets and looks at the command line afterwards, as `cliexecute` does: what the
targets are and with which commands they are made is the same for all command lines.
Second, in `application("app", target="/b/app", sources=["a.cpp"], builddir="/b", ...)` followed by
`cliexecute(argv=["--clang_toolchain"])`, `a.cpp` is compiled and the application linked by `c++`. -/
theorem C111_violated :
    (∀ (S : Site) (lib : Lib) (L : LReg) (l : List Act) (f f' : ToolFlags), (∀ a ∈ l, ¬ a.IsParse) →
      (runScript S (.start lib L) (l ++ [.parse f])).map (fun s => (s.lib, s.L)) =
        (runScript S (.start lib L) (l ++ [.parse f'])).map fun s => (s.lib, s.L)) ∧
    ∃ s xo x c1 c2, runScript incSite (.start Lib.empty demoReg) [incAct, .parse { clang := true }] = .ok s ∧
      Resolves incSite.env.canon s.L.m.reg "/b/s/a.o" xo ∧ Resolves incSite.env.canon s.L.m.reg "/b/app" x ∧
      s.L.cmd xo = some c1 ∧ (words c1).head? = some "c++" ∧ s.L.cmd x = some c2 ∧ (words c2).head? = some "c++" := by
  constructor
  · intro S lib L l f f' _
    rw [runScript_append, runScript_append]
    cases runScript S (.start lib L) l <;> rfl
  · obtain ⟨lib, L, b, h1, h2⟩ := incDemo_shown
    obtain ⟨xo, x, c1, c2, h3, h4, h5, h6, h7, h8⟩ := incShown_some h2
    refine ⟨⟨"clang", some { clang := true }, lib, L⟩, xo, x, c1, c2, ?_, h3, h4, h5, h6, h7, h8⟩
    have h0 : defaultToolchain "std" = .ok stdTools := rfl
    simp only [runScript, List.foldlM_cons, List.foldlM_nil, incAct, Act.run, Sess.start, h0, h1, bind, Except.bind, pure,
      Except.pure, parseTools]
    rfl

/-! ### an example for `C111_partial`: the same script after `licant.cli.parse(["--clang_toolchain"])` -/

def clangR : Opts :=
  match merge clangTools id .merge (setDefaults clangTools []) (incLib.obj 0).opts with
  | .ok r => r
  | .error _ => []

theorem clangDemo_opts : finalOpts clangTools id 10 10 (fun _ => 0) incLib "app__module" none (setDefaults clangTools []) =
    .ok (incLib, clangR) := by
  have hc : Modules.collect 10 10 incLib (fun _ => 0) 0 = .ok (incLib, []) := by
    have h : ((incLib.obj 0).opts.has "mdepends") = false := rfl
    unfold Modules.collect Modules.collectIf
    simp [h, Modules.collectLoop, bind, Except.bind, pure, Except.pure]
  exact finalOpts_of (L1 := incLib) rfl rfl rfl rfl rfl rfl hc rfl

/-- the call returns; both commands begin with `clang++` -/
theorem clangDemo_shown : ∃ lib L b, task incSite clangTools 10 10 (fun _ => 0) Lib.empty demoReg "/s/l.py" "app"
    (some "/b/app") none false "application" incKw = .ok ((lib, L), b) ∧ incShown L = some ("clang++", "clang++") := by
  have h1 : Lib.empty.module "/s/l.py" "app__module" none false (taskOpts "app" "application" (some "/b/app") incKw) =
    .ok incLib := rfl
  have h2 : ∃ a c d e, modmake incSite clangTools 10 10 (fun _ => 0) 50 (incLib, demoReg) "app__module" none
      (setDefaults clangTools []) = .ok ((a, c), d, e) ∧ incShown c = some ("clang++", "clang++") := by
    have : (match modmake incSite clangTools 10 10 (fun _ => 0) 50 (incLib, demoReg) "app__module" none
        (setDefaults clangTools []) with
      | .ok ((_, c), _, _) => incShown c
      | .error _ => none) = some ("clang++", "clang++") := by
      rw [modmake]
      have : incSite.env.home = id := rfl
      simp only [this, clangDemo_opts, bind, Except.bind]
      decide +kernel
    split at this
    · exact ⟨_, _, _, _, by assumption, this⟩
    · cases this
  obtain ⟨a, c, d, e, h2, h7⟩ := h2
  refine ⟨a, c, d, ?_, h7⟩
  unfold task prepareTargets
  have h3 : mkOptions clangTools [] = .ok [] := rfl
  have h4 : ([("type", Val.str "application"), ("target", .str ((some "/b/app").getD "app"))] ++ incKw : Opts) =
    taskOpts "app" "application" (some "/b/app") incKw := rfl
  have h5 : incSite.lim = 50 := rfl
  have h6 : "app" ++ "__module" = "app__module" := by decide
  rw [if_pos (by decide)]
  simp only [h4, h6, h1, h3, h5, h2, bind, Except.bind]
  rfl

theorem clangParts_of : PartsOf incSite clangR incParts := by
  refine ⟨"/b", [.tuple [.str "l.h", .str "/s/inc/l.h"]], [], ["/s/a.cpp"], [], [], rfl, rfl, .cons ⟨rfl, "l.h", rfl, ?_⟩ .nil,
    rfl, rfl, rfl, rfl, rfl, ?_, ?_, ?_, rfl⟩ <;> decide +kernel

/-- the hypotheses of `C111_partial` hold -/
example : incSite.env.Sane ∧ Linked "application" executableCommand ∧
    (∃ s s', runScript incSite (.start Lib.empty demoReg) [.parse { clang := true }] = .ok s ∧ GoodD incSite.env s.L.m ∧
      incAct.run incSite s = .ok s' ∧ incShown s'.L = some ("clang++", "clang++")) ∧
    firstFlags [.parse { clang := true }] = { clang := true } ∧ incKw.get "toolchain" = none ∧
    finalOpts clangTools id 10 10 (fun _ => 0) incLib (taskModule "app" "application") none (setDefaults clangTools []) =
      .ok (incLib, clangR) ∧ PartsOf incSite clangR incParts ∧
    incParts.Fit incSite demoReg.m (taskModule "app" "application" ++ "__local_headers__") "/b/app" incFiles [] := by
  refine ⟨listEnv_sane (by decide +kernel) (by decide +kernel), .application, ?_, rfl, rfl, clangDemo_opts, clangParts_of,
    incParts_fit⟩
  obtain ⟨lib, L, b, h1, h2⟩ := clangDemo_shown
  refine ⟨_, ⟨"clang", some { clang := true }, lib, L⟩, rfl, goodD_licantReg, ?_, h2⟩
  have h0 : defaultToolchain "clang" = .ok clangTools := rfl
  simp only [incAct, Act.run, parseTools, Sess.start, Option.getD_none, if_true, h0, h1, bind, Except.bind, Bool.false_eq_true,
    if_false]
  rfl

/-! ### an example for `C117_given`: the same application with `toolchain=gcc_toolchain("arm-")` -/

def armKw : Opts := incKw ++ [("toolchain", .tool (gccTools "arm-"))]

def armLib : Lib :=
  match Lib.empty.module "/s/l.py" "app__module" none false (taskOpts "app" "application" (some "/b/app") armKw) with
  | .ok l => l
  | .error _ => Lib.empty

def armR : Opts :=
  match merge clangTools id .merge (setDefaults clangTools []) (armLib.obj 0).opts with
  | .ok r => r
  | .error _ => []

theorem armDemo_opts : finalOpts clangTools id 10 10 (fun _ => 0) armLib "app__module" none (setDefaults clangTools []) =
    .ok (armLib, armR) := by
  have hc : Modules.collect 10 10 armLib (fun _ => 0) 0 = .ok (armLib, []) := by
    have h : ((armLib.obj 0).opts.has "mdepends") = false := rfl
    unfold Modules.collect Modules.collectIf
    simp [h, Modules.collectLoop, bind, Except.bind, pure, Except.pure]
  exact finalOpts_of (L1 := armLib) rfl rfl rfl rfl rfl rfl hc rfl

/-- the call returns; both commands begin with `arm-g++` -/
theorem armDemo_shown : ∃ lib L b, task incSite clangTools 10 10 (fun _ => 0) Lib.empty demoReg "/s/l.py" "app"
    (some "/b/app") none false "application" armKw = .ok ((lib, L), b) ∧ incShown L = some ("arm-g++", "arm-g++") := by
  have h1 : Lib.empty.module "/s/l.py" "app__module" none false (taskOpts "app" "application" (some "/b/app") armKw) =
    .ok armLib := rfl
  have h2 : ∃ a c d e, modmake incSite clangTools 10 10 (fun _ => 0) 50 (armLib, demoReg) "app__module" none
      (setDefaults clangTools []) = .ok ((a, c), d, e) ∧ incShown c = some ("arm-g++", "arm-g++") := by
    have : (match modmake incSite clangTools 10 10 (fun _ => 0) 50 (armLib, demoReg) "app__module" none
        (setDefaults clangTools []) with
      | .ok ((_, c), _, _) => incShown c
      | .error _ => none) = some ("arm-g++", "arm-g++") := by
      rw [modmake]
      have : incSite.env.home = id := rfl
      simp only [this, armDemo_opts, bind, Except.bind]
      decide +kernel
    split at this
    · exact ⟨_, _, _, _, by assumption, this⟩
    · cases this
  obtain ⟨a, c, d, e, h2, h7⟩ := h2
  refine ⟨a, c, d, ?_, h7⟩
  unfold task prepareTargets
  have h3 : mkOptions clangTools [] = .ok [] := rfl
  have h4 : ([("type", Val.str "application"), ("target", .str ((some "/b/app").getD "app"))] ++ armKw : Opts) =
    taskOpts "app" "application" (some "/b/app") armKw := rfl
  have h5 : incSite.lim = 50 := rfl
  have h6 : "app" ++ "__module" = "app__module" := by decide
  rw [if_pos (by decide)]
  simp only [h4, h6, h1, h3, h5, h2, bind, Except.bind]
  rfl

theorem armParts_of : PartsOf incSite armR incParts := by
  refine ⟨"/b", [.tuple [.str "l.h", .str "/s/inc/l.h"]], [], ["/s/a.cpp"], [], [], rfl, rfl, .cons ⟨rfl, "l.h", rfl, ?_⟩ .nil,
    rfl, rfl, rfl, rfl, rfl, ?_, ?_, ?_, rfl⟩ <;> decide +kernel

/-- the hypotheses of `C117_given` hold, after `licant.cli.parse(["--clang_toolchain"])` -/
example : incSite.env.Sane ∧ Linked "application" executableCommand ∧
    (∃ s s', runScript incSite (.start Lib.empty demoReg) [.parse { clang := true }] = .ok s ∧ GoodD incSite.env s.L.m ∧
      (Act.task 10 10 (fun _ => 0) "/s/l.py" "app" "application" (some "/b/app") none false armKw).run incSite s = .ok s' ∧
      incShown s'.L = some ("arm-g++", "arm-g++")) ∧
    armKw.get "toolchain" = some (.tool (gccTools "arm-")) ∧ NoSpace "arm-" ∧
    finalOpts clangTools id 10 10 (fun _ => 0) armLib (taskModule "app" "application") none (setDefaults clangTools []) =
      .ok (armLib, armR) ∧ PartsOf incSite armR incParts ∧
    incParts.Fit incSite demoReg.m (taskModule "app" "application" ++ "__local_headers__") "/b/app" incFiles [] := by
  refine ⟨listEnv_sane (by decide +kernel) (by decide +kernel), .application, ?_, rfl, by unfold NoSpace; decide,
    armDemo_opts, armParts_of, incParts_fit⟩
  obtain ⟨lib, L, b, h1, h2⟩ := armDemo_shown
  refine ⟨_, ⟨"clang", some { clang := true }, lib, L⟩, rfl, goodD_licantReg, ?_, h2⟩
  have h0 : defaultToolchain "clang" = .ok clangTools := rfl
  simp only [Act.run, parseTools, Sess.start, Option.getD_none, if_true, h0, h1, bind, Except.bind, Bool.false_eq_true,
    if_false]
  rfl

end Licant.Cxx
