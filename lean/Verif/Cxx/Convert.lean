/-
Files converted by a single tool: model of `objcopy`, `make_gcc_binutils` (licant/cxx_make.py:276-318) and of `javac` and `dex`
(licant/java_make.py), and of the action `disasm` of the target `binutils` (licant/cxx_make.py:286-326).
C124, C125, C126.
-/
import Verif.Cxx.Toolchains

set_option autoImplicit false

namespace Licant.Cxx
open Licant.Py Licant.Py.Path Licant.Core Licant.Make Relation
open Licant.Modules (Toolchain)

/-! ### Model -/

/-- `rule.format(**target.__dict__)` (licant/make.py:31); `look` gives the values of the replacement fields, `none` if there
is no such attribute, or if it is looked up in `None` -/
def formatted (look : Str → Option Str) (rule : String) : Except Modules.Err String := do
  return String.ofList (← fmt look none rule.toList)

/-- licant/cxx_make.py:301 -/
def objcopyRule : String := "{opts.toolchain.objcopy} -O {opts.format} {opts.sections_str} {opts.src} {opts.tgt}"

/-- licant/cxx_make.py:300: `" ".join(["-j {}".format(s) for s in sections])` -/
def sectionsStr (sections : List String) : String := " ".intercalate (sections.map fun s => "-j " ++ s)

/-- licant/cxx_make.py:303-308: the fields of the options of `objcopy` -/
def objcopyLook (tool tgt src format sections : String) (k : Str) : Option Str :=
  if k = "opts.toolchain.objcopy".toList then some tool.toList
  else if k = "opts.format".toList then some format.toList
  else if k = "opts.sections_str".toList then some sections.toList
  else if k = "opts.src".toList then some src.toList
  else if k = "opts.tgt".toList then some tgt.toList
  else none

/-- licant/cxx_make.py:299-318, `objcopy` with the default core: the world after it, and what the `Executor` of the target does
when the target is built: the shell command, or the exception of `format`.  `tool` is `toolchain.objcopy`.  The command
contains the path as it was given, `opts.tgt`, not the canonical path. -/
def objcopyG (E : Env) (lim : Nat) (w : World) (tool tgt src format : String) (sections : List String) :
    Except Core.Err (World × Except Modules.Err String) :=
  match makefileG E lim w tgt [src] false with
  | .error e => .error e
  | .ok w => .ok (w, formatted (objcopyLook tool tgt src format (sectionsStr sections)) objcopyRule)

/-- licant/java_make.py:6-26: `java_options` with a `java_toolchain` or an `android_toolchain` (`dx`); the toolchain `none` is the
default `None` -/
structure JavaOpts where
  toolchain : Option (String × Option String) := none
  flags : String := ""

/-- licant/java_make.py:14 -/
def javacRule : String := "{opts.toolchain.javac} {opts.javac_flags} {srcs}"
/-- licant/java_make.py:15 -/
def dexRule : String := "{opts.toolchain.dx} --dex --output {tgt} {src}"

/-- licant/java_make.py:6-15: the fields of `java_options` that rules refer to -/
def JavaOpts.look (o : JavaOpts) (k : Str) : Option Str :=
  if k = "opts.toolchain.javac".toList then o.toolchain.map fun t => t.1.toList
  else if k = "opts.toolchain.dx".toList then (o.toolchain.bind (·.2)).map String.toList
  else if k = "opts.javac_flags".toList then some o.flags.toList
  else none

/-- licant/java_make.py:29-44, `javac`; the default core (licant/core.py:438) -/
def javacG (E : Env) (lim : Nat) (w : World) (srcs : List String) (tgt : String) (opts : JavaOpts) (deps : List String) :
    Except Core.Err (World × Except Modules.Err String) :=
  let look : Str → Option Str := fun k =>
    if k = "tgt".toList then some (E.canon tgt).toList
    else if k = "srcs".toList then some (" ".intercalate srcs).toList
    else opts.look k
  match srcs.foldlM (fun w j => (sourceG E lim w.dflt j []).map fun d => ({ w with dflt := d } : World)) w with
  | .error e => .error e
  | .ok w =>
    match makefileG E lim w tgt (deps ++ srcs) false with
    | .error e => .error e
    | .ok w => .ok (w, formatted look javacRule)

/-- licant/java_make.py:47-62, `dex` -/
def dexG (E : Env) (lim : Nat) (w : World) (src tgt : String) (opts : JavaOpts) (deps : List String) :
    Except Core.Err (World × Except Modules.Err String) :=
  let look : Str → Option Str := fun k =>
    if k = "tgt".toList then some (E.canon tgt).toList
    else if k = "src".toList then some src.toList
    else opts.look k
  match makefileG E lim w tgt deps false with
  | .error e => .error e
  | .ok w => .ok (w, formatted look dexRule)

/-- licant/cxx_make.py:18-29: all parts of a toolchain -/
structure FullTools where
  cxx : String
  cc : String
  ld : String
  ar : String
  objdump : String
  moc : Option String := none
  uic : Option String := none
  objcopy : String := "objcopy"
deriving DecidableEq

/-- licant/cxx_make.py:48-57, `gcc_toolchain(prefix)` -/
def gccFull (pre : String) : FullTools where
  cc := pre ++ "gcc"
  cxx := pre ++ "g++"
  ld := pre ++ "ld"
  ar := pre ++ "ar"
  objdump := pre ++ "objdump"
  objcopy := pre ++ "objcopy"
  moc := some "moc"
  uic := some "uic"

/-- licant/cxx_make.py:276-283, `make_gcc_binutils(pref)` -/
def gccBinutils (pre : String) : FullTools where
  cxx := pre ++ "-g++"
  cc := pre ++ "-gcc"
  ld := pre ++ "-ld"
  ar := pre ++ "-ar"
  objdump := pre ++ "-objdump"

/-! ### Specification -/

/-- In the world `w` the file `tgt` is made by the target `x`, which depends on what `src` stands for: a target of its own or
a source file. -/
def MadeFrom (E : Env) (w : World) (tgt src : String) (x y : Nat) : Prop :=
  Names E w.dflt tgt x ∧ w.dflt.kind x = .file ∧ (w.dflt.reg.obj x).tgt = E.canon tgt ∧
    Resolves E.canon w.dflt.reg src y ∧ w.dflt.kind y ≠ .other ∧ ObjDep E.canon w.dflt.reg x y

/-- the binary tools of a toolchain for another machine -/
def FullTools.cross (t : FullTools) : List String := [t.cxx, t.cc, t.ld, t.ar, t.objdump, t.objcopy]

/-! ### Proofs -/

theorem formatted_toks {look : Str → Option Str} (rule : String) (toks : List (String × String))
    (hr : rule = " ".intercalate (toks.map (·.1))) (h : ∀ p ∈ toks, Tok look p.1 p.2) :
    formatted look rule = .ok (" ".intercalate (toks.map (·.2))) := by
  have key : ∀ (toks : List (String × String)) (p : String × String), Tok look p.1 p.2 →
      (∀ p ∈ toks, Tok look p.1 p.2) →
      fmt look none (" ".intercalate ((p :: toks).map (·.1))).toList =
        .ok (" ".intercalate ((p :: toks).map (·.2))).toList := by
    intro toks
    induction toks with
    | nil =>
      intro p hp _
      have := fmt_tok hp []
      simp only [List.append_nil] at this
      simp only [List.map_cons, List.map_nil, String.intercalate_singleton, this]
      simp [fmt, bind, Except.bind, pure, Except.pure]
    | cons q toks ih =>
      intro p hp hq
      have h2 := ih q (hq q (by simp)) fun x hx => hq x (by simp [hx])
      simp only [List.map_cons] at h2 ⊢
      rw [String.intercalate_cons_cons, String.toList_append, String.toList_append, List.append_assoc, fmt_tok hp,
        fmt_lit _ _ _ (by decide), h2, String.intercalate_cons_cons]
      simp [bind, Except.bind, pure, Except.pure]
  subst hr
  unfold formatted
  cases toks with
  | nil => rfl
  | cons p toks =>
    rw [key toks p (h p (by simp)) fun x hx => h x (by simp [hx])]
    show Except.ok _ = _
    rw [String.ofList_toList]

theorem words_sections {sections : List String} (h : ∀ s ∈ sections, Word s) :
    words (sectionsStr sections) = sections.flatMap fun s => ["-j", s] := by
  unfold sectionsStr
  rw [words_intercalate, List.flatMap_map]
  refine List.flatMap_congr fun s hs => ?_
  have h1 := words_append "-j" s
  have h2 : "-j" ++ " " ++ s = "-j " ++ s := rfl
  rw [h2, words_word (h s hs)] at h1
  exact h1

variable {E : Env} {lim : Nat}

theorem fold_sources : ∀ (srcs : List String) (w w' : World),
    srcs.foldlM (fun w j => (sourceG E lim w.dflt j []).map fun d => ({ w with dflt := d } : World)) w = .ok w' ↔
    (srcs.map CallD.source).foldlM (callD E lim) w = .ok w' := by
  intro srcs w w'
  rw [List.foldlM_map]
  rfl

/-- a file target made by `makefile` -/
theorem makefile_from (hE : E.Sane) {w w' : World} {tgt : String} {deps : List String} (hg : GoodD E w.dflt)
    (hr : ReasonableD E lim w.dflt (.makefile tgt deps)) (hfree : Free E w.dflt tgt)
    (h : makefileG E lim w tgt deps false = .ok w') :
    ∃ x, ∀ src ∈ deps, '*' ∉ src.toList → ∃ y, MadeFrom E w' tgt src x y := by
  have hgood := (goodD_call hE hg hr h).1
  unfold makefileG at h
  split at h
  · cases h
  rename_i d t ds h1
  cases h
  obtain ⟨hf, hd⟩ := hr
  have hself : ¬ MissingDir E (E.canon tgt) (E.canon tgt) := fun hm => (hf.own _ hm).1 rfl
  obtain ⟨_, k2, _, k4, k5⟩ := fileTarget_keeps hE hf.nostar hself hfree (fun r hr _ => (hd r hr).1) h1
  simp only [World.addTo, Bool.false_eq_true, if_false] at hgood ⊢
  refine ⟨d.reg.next, fun src hs hst => ?_⟩
  have hmem : src ∈ ((d.add (makeObj t ds) Kind.file).reg.obj d.reg.next).deps := by
    rw [k4]
    exact List.mem_append_left _ (mem_globs hs hst)
  have hlt : d.reg.next < (d.add (makeObj t ds) Kind.file).reg.next := by
    simp [MReg.add, Core.add]
  obtain ⟨y, hy, _, hko⟩ := hgood.deps _ hlt _ hmem
  exact ⟨y, k2, k5, by rw [k4]; rfl, hy, hko.resolve_left (by rw [k5]; simp), ⟨src, hmem, hy⟩⟩

theorem objcopy_format (tool tgt src format sections : String) :
    formatted (objcopyLook tool tgt src format sections) objcopyRule =
      .ok (" ".intercalate [tool, "-O", format, sections, src, tgt]) := by
  have hr : objcopyRule = " ".intercalate ["{opts.toolchain.objcopy}", "-O", "{opts.format}", "{opts.sections_str}",
      "{opts.src}", "{opts.tgt}"] := by decide +kernel
  refine formatted_toks objcopyRule [("{opts.toolchain.objcopy}", tool), ("-O", "-O"), ("{opts.format}", format),
      ("{opts.sections_str}", sections), ("{opts.src}", src), ("{opts.tgt}", tgt)] hr ?_
  simp only [List.forall_mem_cons]
  exact ⟨.field (k := "opts.toolchain.objcopy".toList) rfl (by decide) rfl rfl, .lit rfl,
    .field (k := "opts.format".toList) rfl (by decide) rfl rfl,
    .field (k := "opts.sections_str".toList) rfl (by decide) rfl rfl,
    .field (k := "opts.src".toList) rfl (by decide) rfl rfl,
    .field (k := "opts.tgt".toList) rfl (by decide) rfl rfl, by simp⟩

/-- **C124** for `objcopy`, described in a project: its target is made from `src`, whatever stands for `src`, and the command is
`objcopy` of the given toolchain with the format, the sections in the given order, the source and the target.  The project is
again one to which the theorems about builds apply (C88, C124_build). -/
theorem C124_objcopy (hE : E.Sane) {w w' : World} {tool tgt src format : String} {sections : List String}
    {c : Except Modules.Err String} (hw : DescribedD E lim w) (hr : ReasonableD E lim w.dflt (.makefile tgt [src]))
    (hfree : Free E w.dflt tgt) (hst : '*' ∉ src.toList)
    (h : objcopyG E lim w tool tgt src format sections = .ok (w', c)) :
    DescribedD E lim w' ∧ (∃ x y, MadeFrom E w' tgt src x y) ∧
    (Word src → Word tgt → Word format → (∀ s ∈ sections, Word s) → ∃ cmd, c = .ok cmd ∧
      words cmd = words tool ++ ["-O", format] ++ (sections.flatMap fun s => ["-j", s]) ++ [src, tgt]) := by
  unfold objcopyG at h
  split at h
  · cases h
  rename_i w1 h1
  cases h
  refine ⟨.call (.makefile tgt [src]) hw hr h1, ?_, fun w1 w2 w3 w4 => ?_⟩
  · obtain ⟨x, hx⟩ := makefile_from hE (hw.good hE) hr hfree h1
    exact ⟨x, hx src (by simp) hst⟩
  · refine ⟨_, objcopy_format _ _ _ _ _, ?_⟩
    have wO : words "-O" = ["-O"] := by decide +kernel
    rw [words_intercalate]
    simp only [List.flatMap_cons, List.flatMap_nil, wO, words_word w1, words_word w2, words_word w3, words_sections w4]
    simp

/-- C124: what `MadeFrom` is good for.  After a successful build of `tgt` it exists and is not older than `src`, whether `src` is
a source file or made by a target of its own.  C36 says that it is remade when a source changes that it depends on. -/
theorem C124_build {α : Type} (hE : E.Sane) {w : World} {tgt src : String} {x y : Nat} (hw : DescribedD E lim w)
    (hm : MadeFrom E w tgt src x y) (hy : w.dflt.kind y = .file ∨ w.dflt.kind y = .source) (P : Proj α)
    (hreg : P.reg = w.dflt.reg) (hkind : P.kind = w.dflt.kind) (hpar : ∀ p q, q ∈ P.parents p → IsAnc q p)
    {fs0 : FS α} {cache0 : FileCache} {B : Invocation P E.canon x fs0 cache0} {clock0 : Nat} {tr : List (Ev α)} {s : St α}
    (hacc : Accurate P fs0 cache0) (ht : ∀ p e, fs0 p = some e → e.mtime ≤ clock0) (hx : B.Run clock0 tr s)
    (hp : Productive B tr) (hs : s.Succeeded) :
    ∃ e, s.fs (E.canon tgt) = some e ∧ ∀ e', s.fs (E.canon src) = some e' → e'.mtime ≤ e.mtime := by
  obtain ⟨hS, _⟩ := C88_wellformed hE hw P hreg hkind hpar
  obtain ⟨m1, m2, m3, m4, m5, m6⟩ := hm
  have hg := hw.good hE
  have hrx : Registered P.reg x := by
    rw [hreg]
    rcases m1 tgt rfl with h | ⟨_, h⟩
    · exact ⟨_, h⟩
    · exact ⟨_, h⟩
  have hpath : (w.dflt.reg.obj y).tgt = E.canon src := by
    have h1 : ∀ n, w.dflt.reg.targets.get n = some y → E.canon n = (w.dflt.reg.obj y).tgt := by
      intro n hn
      rw [hg.names n y hn]
      refine hg.canonT y (hg.lt n y hn) ?_ m5
      rcases hy with h | h <;> rw [h] <;> simp
    rcases m4 with h | ⟨_, h⟩
    · exact (h1 _ h).symm
    · rw [← h1 _ h, hE.idem]
  obtain ⟨e, he, hle⟩ := C33_fresh hS hrx (by rw [hkind, m2]; simp) hacc ht hx hp hs x .refl (by rw [hkind, m2])
  refine ⟨e, ?_, fun e' he' => hle y e' (.direct (by rw [hreg]; exact m6) (by rw [hkind]; exact hy)) ?_⟩
  · have : P.path x = E.canon tgt := by unfold Proj.path; rw [hreg, m3]
    rw [← this]; exact he
  · have : P.path y = E.canon src := by unfold Proj.path; rw [hreg, hpath]
    rw [this]; exact he'

/-- **C124** for `javac`, as far as it holds: the target depends on all sources and on the given dependencies; the command is the
compiler with its flags and the sources.  The target is not mentioned in the command. -/
theorem C124_javac_partial (hE : E.Sane) {w w' : World} {srcs deps : List String} {tgt : String} {opts : JavaOpts}
    {c : Except Modules.Err String} (hw : DescribedD E lim w) 
    (hs : ∀ pre j post w1, srcs = pre ++ j :: post → (pre.map CallD.source).foldlM (callD E lim) w = .ok w1 →
      ReasonableD E lim w1.dflt (.source j))
    (hr : ∀ w1, (srcs.map CallD.source).foldlM (callD E lim) w = .ok w1 →
      ReasonableD E lim w1.dflt (.makefile tgt (deps ++ srcs)) ∧ Free E w1.dflt tgt)
    (h : javacG E lim w srcs tgt opts deps = .ok (w', c)) :
    DescribedD E lim w' ∧
    (∃ x, ∀ src ∈ deps ++ srcs, '*' ∉ src.toList → ∃ y, MadeFrom E w' tgt src x y) ∧
    (∀ tool, opts.toolchain = some tool → (∀ s ∈ srcs, Word s) → ∃ cmd, c = .ok cmd ∧
      words cmd = words tool.1 ++ words opts.flags ++ srcs) ∧
    (opts.toolchain = none → c = .error .raised) := by
  unfold javacG at h
  simp only at h
  split at h
  · cases h
  rename_i w1 h1
  rw [fold_sources] at h1
  split at h
  · cases h
  rename_i w2 h2
  cases h
  obtain ⟨hr1, hr2⟩ := hr w1 h1
  have hd : ∀ (l pre : List String) (wa w1 : World), srcs = pre ++ l →
      (pre.map CallD.source).foldlM (callD E lim) w = .ok wa → DescribedD E lim wa →
      (l.map CallD.source).foldlM (callD E lim) wa = .ok w1 → DescribedD E lim w1 := by
    intro l
    induction l with
    | nil => intro pre wa w1 _ _ hw h; cases h; exact hw
    | cons j l ih =>
      intro pre wa w1 hl hpre hw h
      simp only [List.map_cons, List.foldlM_cons, bind, Except.bind] at h
      split at h
      · cases h
      rename_i w2 h2
      refine ih (pre ++ [j]) w2 w1 (by simp [hl]) ?_ (.call (.source j) hw (hs pre j l wa hl hpre) h2) h
      rw [List.map_append, List.foldlM_append, hpre]
      simp only [List.map_cons, List.map_nil, List.foldlM_cons, List.foldlM_nil, bind, Except.bind, h2]
      rfl
  have hw1 := hd srcs [] w w1 rfl rfl hw h1
  refine ⟨.call (.makefile tgt (deps ++ srcs)) hw1 hr1 h2, makefile_from hE (hw1.good hE) hr1 hr2 h2, ?_, ?_⟩
  · intro tool ht hsw
    have hr : javacRule = " ".intercalate ["{opts.toolchain.javac}", "{opts.javac_flags}", "{srcs}"] := by decide +kernel
    refine ⟨_, formatted_toks javacRule [("{opts.toolchain.javac}", tool.1), ("{opts.javac_flags}", opts.flags),
      ("{srcs}", " ".intercalate srcs)] hr ?_, ?_⟩
    · simp only [List.forall_mem_cons]
      refine ⟨.field (k := "opts.toolchain.javac".toList) rfl (by decide) rfl ?_,
        .field (k := "opts.javac_flags".toList) rfl (by decide) rfl rfl,
        .field (k := "srcs".toList) rfl (by decide) rfl rfl, by simp⟩
      show opts.toolchain.map (fun t => t.1.toList) = _
      rw [ht]; rfl
    · rw [words_intercalate]
      simp only [List.map_cons, List.map_nil, List.flatMap_cons, List.flatMap_nil, words_intercalate, words_list hsw]
      simp
  · intro ht
    have hr : javacRule.toList = '{' :: ("opts.toolchain.javac".toList ++ '}' :: " {opts.javac_flags} {srcs}".toList) := by
      decide +kernel
    unfold formatted
    rw [hr]
    obtain ⟨tc, fl⟩ := opts
    cases ht
    rfl

/-! #### an example: `objcopy(toolchain, "/s/out/d/b", "/s/a", "binary", [".text", ".data"])`, and the same with `javac` -/

theorem convDemo_reasonable : ReasonableD srcEnv 50 licantReg (.makefile "/s/out/d/b" ["/s/a"]) := by
  refine ⟨?_, ?_⟩
  · exact fitsD_src ["/s/out/d", "/s/out", "/s", "/"] (by decide +kernel) (by decide +kernel) (by decide +kernel)
      (by decide +kernel) (by decide +kernel) (by decide +kernel) (by intro b hb; rw [licantReg_kind] at hb; cases hb)
      (by rintro a (h | h) <;> rw [licantReg_kind] at h <;> cases h)
      (by
        intro a ha o h
        have h1 := (licantReg_get h).2.2
        exfalso
        revert ha h1
        simp only [List.mem_cons, List.not_mem_nil, or_false]
        rintro (rfl | rfl | rfl | rfl) <;> decide +kernel)
  · intro r hr
    have hgl : globs srcEnv ["/s/a"] = ["/s/a"] := by decide +kernel
    rw [hgl, List.mem_singleton] at hr
    subst hr
    refine ⟨by decide +kernel, Or.inr ⟨by decide +kernel, ?_, (by intro b hb; rw [licantReg_kind] at hb; cases hb), ?_⟩⟩
    · rintro o (h | ⟨_, h⟩) <;> exact absurd (licantReg_get h).2.2 (by decide +kernel)
    rintro q ⟨j, _, rfl⟩ ⟨i, hi⟩
    have hA : ∀ a ∈ ["/s/out/d", "/s/out", "/s", "/"], parent a ∈ ["/s/out/d", "/s/out", "/s", "/"] := by
      decide +kernel
    have h1 := anc_mem hA (p := "/s/out/d/b") (by decide +kernel) j
    have h2 := anc_mem hA (hA _ h1) i
    change "/s/a" = anc (anc "/s/out/d/b" j) i at hi
    rw [← hi] at h2
    revert h2; decide +kernel

/-- the assumptions of C124_objcopy can be met -/
example : ∃ w' cmd x y, objcopyG srcEnv 50 ⟨licantReg, noReg⟩ (gccFull "arm-").objcopy "/s/out/d/b" "/s/a" "binary"
      [".text", ".data"] = .ok (w', .ok cmd) ∧
    DescribedD srcEnv 50 w' ∧ MadeFrom srcEnv w' "/s/out/d/b" "/s/a" x y ∧
    words cmd = ["arm-objcopy", "-O", "binary", "-j", ".text", "-j", ".data", "/s/a", "/s/out/d/b"] := by
  have h : ∃ w' c, objcopyG srcEnv 50 ⟨licantReg, noReg⟩ (gccFull "arm-").objcopy "/s/out/d/b" "/s/a" "binary"
      [".text", ".data"] = .ok (w', c) := ⟨_, _, rfl⟩
  obtain ⟨w', c, h⟩ := h
  obtain ⟨h1, ⟨x, y, h2⟩, h3⟩ := C124_objcopy srcEnv_sane (.new noReg) convDemo_reasonable
    (licant_free (fun _ => rfl) (by decide +kernel)) (by decide +kernel) h
  have hw : ∀ s : String, (decide (s ≠ "") && decide (' ' ∉ s.toList)) = true → Word s := by
    intro s hs
    simp only [Bool.and_eq_true, decide_eq_true_eq] at hs
    exact hs
  obtain ⟨cmd, rfl, h4⟩ := h3 (hw _ (by decide +kernel)) (hw _ (by decide +kernel)) (hw _ (by decide +kernel)) (by
    intro s hs
    simp only [List.mem_cons, List.not_mem_nil, or_false] at hs
    rcases hs with rfl | rfl <;> exact hw _ (by decide +kernel))
  have h5 : words (gccFull "arm-").objcopy = ["arm-objcopy"] := by decide +kernel
  rw [h5] at h4
  exact ⟨w', cmd, x, y, h, h1, h2, h4⟩

/-- the default core after `source("/s/a")` -/
def convDemo : MReg := licantReg.add (makeObj "/s/a" []) .source

theorem convDemo_kind (b : Nat) : convDemo.kind b = if b = 4 then .source else .other := by
  show (if b = 4 then Kind.source else licantReg.kind b) = _
  rw [licantReg_kind]

theorem convDemo_get {n : String} {o : Nat} (h : convDemo.reg.targets.get n = some o) :
    n = "/s/a" ∧ o = 4 ∨ n ∈ licantNames := by
  have h1 : convDemo.reg.targets.get n = if "/s/a" = n then some 4 else licantReg.reg.targets.get n :=
    Dict.get_set _ _ _ _
  rw [h1] at h
  split at h
  · rename_i hn
    cases h
    exact Or.inl ⟨hn.symm, rfl⟩
  · exact Or.inr (licantReg_get h).2.2

/-- the assumptions of C124_javac_partial can be met -/
example : ∃ w' cmd x y, javacG srcEnv 50 ⟨licantReg, noReg⟩ ["/s/a"] "/s/out/d/b"
      { toolchain := some ("javac", none), flags := "-g" } [] = .ok (w', .ok cmd) ∧
    DescribedD srcEnv 50 w' ∧ MadeFrom srcEnv w' "/s/out/d/b" "/s/a" x y ∧ words cmd = ["javac", "-g", "/s/a"] := by
  have h : ∃ w' c, javacG srcEnv 50 ⟨licantReg, noReg⟩ ["/s/a"] "/s/out/d/b"
      { toolchain := some ("javac", none), flags := "-g" } [] = .ok (w', c) := ⟨_, _, rfl⟩
  obtain ⟨w', c, h⟩ := h
  have hA : ∀ a ∈ ["/s/out/d", "/s/out", "/s", "/"], parent a ∈ ["/s/out/d", "/s/out", "/s", "/"] := by decide +kernel
  have hfits : FitsD srcEnv licantReg "/s/a" :=
    fitsD_src ["/s", "/"] (by decide +kernel) (by decide +kernel) (by decide +kernel) (by decide +kernel)
      (by decide +kernel) (by decide +kernel) (by intro b hb; rw [licantReg_kind] at hb; cases hb)
      (by rintro a (h | h) <;> rw [licantReg_kind] at h <;> cases h)
      (by
        intro a ha o h
        have h1 := (licantReg_get h).2.2
        exfalso
        revert ha h1
        simp only [List.mem_cons, List.not_mem_nil, or_false]
        rintro (rfl | rfl) <;> decide +kernel)
  have hw : ∀ s : String, (decide (s ≠ "") && decide (' ' ∉ s.toList)) = true → Word s := by
    intro s hs
    simp only [Bool.and_eq_true, decide_eq_true_eq] at hs
    exact hs
  obtain ⟨h1, ⟨x, h2⟩, h3, _⟩ := C124_javac_partial srcEnv_sane (.new noReg) (by
      intro pre j post w1 hs hpre
      cases pre with
      | nil => cases hs; cases hpre; exact Or.inr hfits
      | cons a pre => cases pre <;> cases hs) (by
      intro w1 hw1
      have h1 : w1 = ⟨convDemo, noReg⟩ := by
        have : ([CallD.source "/s/a"]).foldlM (callD srcEnv 50) ⟨licantReg, noReg⟩ = .ok ⟨convDemo, noReg⟩ := rfl
        exact Except.ok.inj (hw1.symm.trans this)
      subst h1
      refine ⟨⟨?_, ?_⟩, ?_⟩
      · refine fitsD_src ["/s/out/d", "/s/out", "/s", "/"] hA (by decide +kernel) (by decide +kernel)
          (by decide +kernel) (by decide +kernel) (by decide +kernel) ?_ ?_ ?_
        · intro b hb
          rw [convDemo_kind] at hb
          split at hb <;> cases hb
        · intro b hb
          have : b = 4 := by
            unfold FileLike at hb
            rw [convDemo_kind] at hb
            by_contra hne
            simp [hne] at hb
          subst this
          decide +kernel
        · intro a ha o ho
          exfalso
          rcases convDemo_get ho with ⟨rfl, _⟩ | hl
          · revert ha; decide +kernel
          · simp only [List.mem_cons, List.not_mem_nil, or_false] at ha
            rcases ha with rfl | rfl | rfl | rfl <;> revert hl <;> decide +kernel
      · intro r hr
        have hgl : globs srcEnv ([] ++ ["/s/a"]) = ["/s/a"] := by decide +kernel
        rw [hgl, List.mem_singleton] at hr
        subst hr
        exact ⟨by decide +kernel, Or.inl ⟨4, Or.inl (by decide +kernel), by decide +kernel⟩⟩
      · intro n o hn ho
        change n = "/s/out/d/b" at hn
        subst hn
        rcases ho with ho | ⟨_, ho⟩ <;> rcases convDemo_get ho with ⟨hn, _⟩ | hl
        · revert hn; decide +kernel
        · revert hl; decide +kernel
        · revert hn; decide +kernel
        · revert hl; decide +kernel) h
  obtain ⟨y, hy⟩ := h2 "/s/a" (by simp) (by decide +kernel)
  obtain ⟨cmd, rfl, h4⟩ := h3 _ rfl (by
    intro s hs
    rw [List.mem_singleton] at hs
    subst hs
    exact hw _ (by decide +kernel))
  have h5 : words ("javac", (none : Option String)).1 = ["javac"] := by decide +kernel
  have h6 : words "-g" = ["-g"] := by decide +kernel
  rw [h5, h6] at h4
  exact ⟨w', cmd, x, y, h, h1, hy, h4⟩

/-! #### what does not hold -/

def javaEnv : Env := listEnv [".", "/", "//", "/s", "/s/A.java"]

def javaOpts : JavaOpts := { toolchain := some ("javac", some "dx") }

/-- **C124** is violated by `javac` and `dex`.  In the project `javac(["/s/A.java"], "/s/A.class"); dex("/s/A.class", "/s/c.dex")`
the command of `/s/A.class` does not mention it.  The command of `/s/c.dex` reads `/s/A.class`, but the target depends neither
on the target `/s/A.class` nor on anything else: it is not made before, and `/s/c.dex` is not remade after it.  With the
default options both commands raise when the target is built. -/
theorem C124_violated : ∃ w1 w2 c1 c2 x y, javaEnv.Sane ∧
    javacG javaEnv 50 ⟨licantReg, noReg⟩ ["/s/A.java"] "/s/A.class" javaOpts [] = .ok (w1, .ok c1) ∧
    dexG javaEnv 50 w1 "/s/A.class" "/s/c.dex" javaOpts [] = .ok (w2, .ok c2) ∧
    Resolves javaEnv.canon w2.dflt.reg "/s/A.class" y ∧ w2.dflt.kind y = .file ∧
    Resolves javaEnv.canon w2.dflt.reg "/s/c.dex" x ∧ w2.dflt.kind x = .file ∧
    "/s/A.class" ∉ words c1 ∧ "/s/A.class" ∈ words c2 ∧
    (∀ z, ¬ ObjDep javaEnv.canon w2.dflt.reg x z) ∧ ¬ TransGen (ObjDep javaEnv.canon w2.dflt.reg) x y ∧
    (javacG javaEnv 50 ⟨licantReg, noReg⟩ ["/s/A.java"] "/s/A.class" {} []).toOption.map (·.2.toOption) = some none ∧
    (dexG javaEnv 50 w1 "/s/A.class" "/s/c.dex" {} []).toOption.map (·.2.toOption) = some none := by
  have hno : ∀ {c : Reg} {x : Nat}, (c.obj x).deps = [] → ∀ z, ¬ ObjDep javaEnv.canon c x z := by
    rintro c x h z ⟨d, hd, _⟩
    rw [h] at hd
    cases hd
  refine ⟨_, _, "javac  /s/A.java", "dx --dex --output /s/c.dex /s/A.class", 6, 5,
    listEnv_sane (by decide +kernel) (by decide +kernel), rfl, rfl, Or.inl (by decide +kernel), by decide +kernel,
    Or.inl (by decide +kernel), by decide +kernel, by decide +kernel, by decide +kernel, hno (by decide +kernel), ?_,
    by decide +kernel, by decide +kernel⟩
  intro h
  obtain ⟨z, hz, _⟩ := TransGen.head'_iff.1 h
  exact hno (by decide +kernel) z hz

/-! ### C125 -/

/-- **C125**, as far as it holds: the tools of `gcc_toolchain(prefix)` all have the prefix, and so have the tools of
`make_gcc_binutils(prefix)`, with a `-` after it, except `objcopy`. -/
theorem C125_partial (pre : String) :
    (∀ t ∈ (gccFull pre).cross, ∃ name, t = pre ++ name) ∧
    ((gccFull pre).cxx, (gccFull pre).cc, (gccFull pre).ar) = ((gccTools pre).cxx, (gccTools pre).cc, (gccTools pre).ar) ∧
    ∀ t ∈ [(gccBinutils pre).cxx, (gccBinutils pre).cc, (gccBinutils pre).ld, (gccBinutils pre).ar,
      (gccBinutils pre).objdump], ∃ name, t = pre ++ "-" ++ name := by
  refine ⟨?_, rfl, ?_⟩
  · intro t ht
    simp only [FullTools.cross, gccFull, List.mem_cons, List.not_mem_nil, or_false] at ht
    rcases ht with h | h | h | h | h | h <;> exact ⟨_, h⟩
  · intro t ht
    have h1 : ∀ s : String, pre ++ ("-" ++ s) = pre ++ "-" ++ s := fun s => String.append_assoc.symm
    simp only [gccBinutils, List.mem_cons, List.not_mem_nil, or_false] at ht
    rcases ht with h | h | h | h | h
    · exact ⟨"g++", by rw [← h1, h]; rfl⟩
    · exact ⟨"gcc", by rw [← h1, h]; rfl⟩
    · exact ⟨"ld", by rw [← h1, h]; rfl⟩
    · exact ⟨"ar", by rw [← h1, h]; rfl⟩
    · exact ⟨"objdump", by rw [← h1, h]; rfl⟩

/-- **C125** is violated by `make_gcc_binutils`: whatever the prefix is, `objcopy` of this toolchain has not got it; `objcopy()`
runs the tool of the host. -/
theorem C125_violated (pre : String) : (∀ name, (gccBinutils pre).objcopy ≠ pre ++ "-" ++ name) ∧
    ∃ w cmd, objcopyG srcEnv 50 ⟨licantReg, noReg⟩ (gccBinutils pre).objcopy "/s/out/d/b" "/s/a" "binary" [] =
      .ok (w, .ok cmd) ∧ (words cmd).head? = some "objcopy" := by
  constructor
  · intro name h
    have h1 : '-' ∈ (pre ++ "-" ++ name).toList := by
      rw [String.toList_append, String.toList_append]
      simp
    rw [← h] at h1
    revert h1
    show '-' ∉ "objcopy".toList
    decide
  · have h : (gccBinutils pre).objcopy = "objcopy" := rfl
    rw [h]
    exact ⟨_, "objcopy -O binary  /s/a /s/out/d/b", rfl, by decide +kernel⟩

example : (gccFull "arm-none-eabi-").cross = ["arm-none-eabi-g++", "arm-none-eabi-gcc", "arm-none-eabi-ld",
    "arm-none-eabi-ar", "arm-none-eabi-objdump", "arm-none-eabi-objcopy"] ∧
    (gccBinutils "arm-none-eabi").cross = ["arm-none-eabi-g++", "arm-none-eabi-gcc", "arm-none-eabi-ld",
    "arm-none-eabi-ar", "arm-none-eabi-objdump", "objcopy"] := by decide +kernel

/-! ### C126: the disassembler -/

/-- an argument of a Python function, as far as `disassembler` is concerned -/
inductive DArg where
  | str (s : String)
  | core

/-- what `disassembler` needs of a target: whether `makefile()` returns, and the value of `opts.binutils.objdump`, `none` if there
is no such attribute.  The class `options` (licant/cxx_make.py:83-121) has no attribute `binutils`. -/
structure DTarget where
  tgt : String
  makes : Bool
  objdump : Option String

/-- licant/cxx_make.py:286-296, `disassembler(target, core=default_core(), *args)`: the shell command, or an exception.  `get` is
`core.get` of the default core, and of any core that is given.  The arguments are those after `target`: the first of them is
taken for `core`. -/
def disassembler (get : String → Option DTarget) (args : List DArg) : Except Modules.Err String :=
  let rest := args.drop 1
  match rest with
  | [] => .error .raised
  | .core :: _ => .error .raised
  | .str a :: rest =>
    match args.head? with
    | some (.str _) => .error .raised
    | _ =>
      match get a with
      | none => .error .exit
      | some t =>
        if t.makes then
          match t.objdump, rest with
          | some d, .str out :: _ => .ok (d ++ " -D " ++ t.tgt ++ " > " ++ out)
          | _, _ => .error .raised
        else .error .raised

/-- licant/cxx_make.py:322-326 and licant/core.py:264-297: the action `disasm` of the target `binutils`, invoked with the
arguments `args`, which are strings -/
def disasmAction (get : String → Option DTarget) (args : List String) : Except Modules.Err String :=
  disassembler get (args.map .str)

/-- **C126** is violated: the action `disasm` fails for all arguments and in all projects, before any command is run; and the
function fails for every target whose options are the `options` of licant. -/
theorem C126_violated (get : String → Option DTarget) :
    (∀ args : List String, disasmAction get args = .error .raised) ∧
    ((∀ a t, get a = some t → t.objdump = none) → ∀ args cmd, disassembler get args ≠ .ok cmd) := by
  constructor
  · rintro (_ | ⟨a, _ | ⟨b, l⟩⟩) <;> rfl
  · intro h args cmd hc
    unfold disassembler at hc
    simp only at hc
    split at hc
    · cases hc
    · cases hc
    split at hc
    · cases hc
    split at hc
    · cases hc
    rename_i t ht
    split at hc
    · rw [h _ t ht] at hc
      cases hc
    · cases hc

/-- **C126**, as far as it holds: called from Python with a core, a target that can be built and that has `opts.binutils.objdump`,
and the name of the list, the function runs this tool for the target. -/
theorem C126_partial (get : String → Option DTarget) {a out objdump : String} {t : DTarget} (l : List DArg)
    (hg : get a = some t) (hm : t.makes = true) (ho : t.objdump = some objdump) (hw : Word t.tgt) (hw' : Word out) :
    ∃ cmd, disassembler get (.core :: .str a :: .str out :: l) = .ok cmd ∧
      words cmd = words objdump ++ ["-D", t.tgt, ">", out] := by
  refine ⟨objdump ++ " -D " ++ t.tgt ++ " > " ++ out, ?_, ?_⟩
  · simp [disassembler, hg, hm, ho]
  · have h1 : objdump ++ " -D " ++ t.tgt ++ " > " ++ out = objdump ++ " " ++ ("-D" ++ " " ++ (t.tgt ++ " " ++ (">" ++ " " ++ out))) := by
      have e1 : (" -D " : String) = " " ++ ("-D" ++ " ") := rfl
      have e2 : (" > " : String) = " " ++ (">" ++ " ") := rfl
      rw [e1, e2]
      simp only [String.append_assoc]
    have w1 : words "-D" = ["-D"] := by decide +kernel
    have w2 : words ">" = [">"] := by decide +kernel
    rw [h1, words_append, words_append, words_append, words_append, w1, w2, words_word hw, words_word hw']
    rfl

example : disassembler (fun _ => some ⟨"a.o", true, some "objdump"⟩) [.core, .str "a.o", .str "a.lst"] =
    .ok "objdump -D a.o > a.lst" := by decide +kernel

end Licant.Cxx
