/-
The commands run for C and C++ targets: `licant/cxx_make.py`, `cxx_options_from_modopts` of
`licant/cxx_modules.py:209-232`, `flag_prefix` of `licant/util.py:208-212` and the formatting of rules in
`licant/make.py:31`.  C58, C59, C87.
-/
import Verif.Cxx.Paths
import Verif.Cxx.Options

set_option autoImplicit false

namespace Licant.Cxx
open Licant.Py Licant.Py.Path Licant.Modules

/-! ### Model -/

/-- licant/cxx_make.py:83-107: the fields of `options` that rules refer to -/
structure CxxOpts where
  toolchain : Toolchain
  incopt : String
  defopt : String
  ldscripts : String
  cxxFlags : String
  ccFlags : String
  ldFlags : String
  ldSrcsAdd : String
  optimize : String

/-- licant/util.py:208-212, `flag_prefix` of a list -/
def flagPrefix (pref : String) (l : List String) : String := " ".intercalate (l.map (pref ++ ·))

/-- a list of strings; members of other classes raise `TypeError` when they are added to a string -/
def strs : Val → Except Err (List String)
  | .list l => l.mapM fun v => match v with
    | .str s => .ok s
    | _ => .error .raised
  | _ => .error .raised

/-- `modopts[k]` for an option that is used as a string -/
def text (o : Opts) (k : String) : Except Err String :=
  match o.get k with
  | some (.str s) => .ok s
  | _ => .error .raised

/-- `modopts[k]` for an option that is used as a list of strings -/
def texts (o : Opts) (k : String) : Except Err (List String) :=
  match o.get k with
  | some v => strs v
  | none => .error .raised

/-- licant/cxx_modules.py:209-232, `cxx_options_from_modopts`; `home` is `os.path.expanduser`.  The toolchain is an object
of class `toolchain` (checked by `CXXModuleOptions.check`), so the default of licant/cxx_make.py:96-97 is not used. -/
def cxxOptions (home : String → String) (o : Opts) : Except Err CxxOpts := do
  let cxxstd ← text o "cxxstd"
  let ccstd ← text o "ccstd"
  let debug ← text o "debug"
  let cxxFlags ← text o "cxx_flags"
  let ccFlags ← text o "cc_flags"
  let libdirs ← texts o "libdirs"
  let libs ← texts o "libs"
  let incs ← texts o "include_paths"
  let defs ← texts o "defines"
  let scripts ← texts o "ldscripts"
  let ldFlags ← text o "ld_flags"
  let optimize ← text o "optimize"
  match o.get "toolchain" with
  | some (.tool tc) =>
    return { toolchain := tc
             incopt := flagPrefix "-I" incs
             defopt := flagPrefix "-D" defs
             ldscripts := flagPrefix "-T" scripts
             cxxFlags := " ".intercalate ["-std=" ++ cxxstd, debug, cxxFlags]
             ccFlags := " ".intercalate ["-std=" ++ ccstd, debug, ccFlags]
             ldFlags := ldFlags
             ldSrcsAdd := String.join (libdirs.map fun l => " -L" ++ home l) ++ String.join (libs.map fun l => " -l" ++ l)
             optimize := optimize }
  | _ => throw .raised

/-- licant/cxx_make.py:108 -/
def execRule : String := "{opts.toolchain.cxx} {opts.ld_flags} -Wl,--start-group {srcs} {opts.ld_srcs_add} -Wl,--end-group -o {tgt} {opts.ldscripts}"
/-- licant/cxx_make.py:109 -/
def dynlibRule : String := "{opts.toolchain.cxx} --shared {opts.ld_flags} -Wl,--start-group {srcs} {opts.ld_srcs_add} -Wl,--end-group -o {tgt} {opts.ldscripts}"
/-- licant/cxx_make.py:110 -/
def statlibRule : String := "{opts.toolchain.ar} rcs {tgt} {srcs}"
/-- licant/cxx_make.py:111 -/
def cxxObjRule : String := "{opts.toolchain.cxx} -c {src} -o {tgt} {opts.incopt} {opts.defopt} {opts.cxx_flags} {opts.optimize}"
/-- licant/cxx_make.py:112 -/
def ccObjRule : String := "{opts.toolchain.cc} -c {src} -o {tgt} {opts.incopt} {opts.defopt} {opts.cc_flags} {opts.optimize}"
/-- licant/cxx_make.py:113 -/
def cxxDepRule : String := "{opts.toolchain.cxx} -MM {src} > {tgt} {opts.incopt} {opts.defopt} {opts.cxx_flags}"
/-- licant/cxx_make.py:114 -/
def ccDepRule : String := "{opts.toolchain.cc} -MM {src} > {tgt} {opts.incopt} {opts.defopt} {opts.cc_flags}"
/-- licant/cxx_make.py:115 -/
def mocRule : String := "{opts.toolchain.moc} {src} > {tgt}"
/-- licant/cxx_make.py:116 -/
def uicRule : String := "{opts.toolchain.uic} {src} > {tgt}"

/-- the fields of a target of licant/cxx_make.py that rules refer to; `none` is a missing attribute -/
structure CTarget where
  tgt : String
  src : Option String := none
  srcs : Option String := none
  opts : CxxOpts

/-- the value of a replacement field of a rule in the dictionary of a target -/
def CTarget.look (t : CTarget) (k : Str) : Option Str :=
  if k = "tgt".toList then some t.tgt.toList
  else if k = "src".toList then t.src.map String.toList
  else if k = "srcs".toList then t.srcs.map String.toList
  else if k = "opts.toolchain.cxx".toList then some t.opts.toolchain.cxx.toList
  else if k = "opts.toolchain.cc".toList then some t.opts.toolchain.cc.toList
  else if k = "opts.toolchain.ar".toList then some t.opts.toolchain.ar.toList
  else if k = "opts.toolchain.moc".toList then some (t.opts.toolchain.moc.getD "None").toList
  else if k = "opts.toolchain.uic".toList then some (t.opts.toolchain.uic.getD "None").toList
  else if k = "opts.incopt".toList then some t.opts.incopt.toList
  else if k = "opts.defopt".toList then some t.opts.defopt.toList
  else if k = "opts.ldscripts".toList then some t.opts.ldscripts.toList
  else if k = "opts.cxx_flags".toList then some t.opts.cxxFlags.toList
  else if k = "opts.cc_flags".toList then some t.opts.ccFlags.toList
  else if k = "opts.ld_flags".toList then some t.opts.ldFlags.toList
  else if k = "opts.ld_srcs_add".toList then some t.opts.ldSrcsAdd.toList
  else if k = "opts.optimize".toList then some t.opts.optimize.toList
  else none

/-- `str.format` for replacement fields without conversion and format specification: outside of fields (`none`), or inside
of a field of which the given characters (reversed) have been read -/
def fmt (look : Str → Option Str) : Option Str → Str → Except Err Str
  | none, [] => .ok []
  | none, '{' :: '{' :: r => do return '{' :: (← fmt look none r)
  | none, '}' :: '}' :: r => do return '}' :: (← fmt look none r)
  | none, '{' :: r => fmt look (some []) r
  | none, '}' :: _ => .error .raised
  | none, c :: r => do return c :: (← fmt look none r)
  | some _, [] => .error .raised
  | some k, '}' :: r =>
    match look k.reverse with
    | none => .error .raised
    | some v => do return v ++ (← fmt look none r)
  | some k, c :: r => fmt look (some (c :: k)) r

/-- licant/make.py:31: the command of a target with the given rule -/
def command (rule : String) (t : CTarget) : Except Err String := do
  return String.ofList (← fmt t.look none rule.toList)

/-- the two compilers -/
inductive Driver where
  | cxx
  | cc
deriving DecidableEq, Repr

/-- licant/cxx_make.py:124-126 -/
def cxxExts : List Str := ["cpp".toList, "cxx".toList, "cc".toList]
/-- licant/cxx_make.py:125 -/
def ccExts : List Str := ["c".toList]
/-- licant/cxx_make.py:126 -/
def asmExts : List Str := ["asm".toList, "s".toList, "S".toList]

/-- licant/cxx_make.py:134, 203: `os.path.basename(src).split(".")[-1]` -/
def extension (src : Str) : Str := ((basename src).splitOnP (· = '.')).getLastD []

/-- licant/cxx_make.py:133-144, 202-213 -/
def kindOf (src : String) (type : Option String) : Except Err String :=
  match type with
  | some t => .ok t
  | none =>
    let ext := extension src.toList
    if ext ∈ cxxExts then .ok "cxx"
    else if ext ∈ ccExts then .ok "cc"
    else if ext ∈ asmExts then .ok "asm"
    else .error .exit

/-- licant/cxx_make.py:145-153, 214-222 -/
def driverOf (kind : String) : Except Err Driver :=
  if kind = "cxx" then .ok .cxx
  else if kind = "cc" then .ok .cc
  else if kind = "asm" then .ok .cc
  else .error .exit

/-- licant/cxx_make.py:129-158: the command `object` registers for a source -/
def objectCommand (src tgt : String) (opts : CxxOpts) (type : Option String) : Except Err String := do
  match ← driverOf (← kindOf src type) with
  | .cxx => command cxxObjRule { tgt := tgt, src := src, opts := opts }
  | .cc => command ccObjRule { tgt := tgt, src := src, opts := opts }

/-- licant/cxx_make.py:193-234: the command `depend` registers for a source -/
def dependCommand (src tgt : String) (opts : CxxOpts) (type : Option String) : Except Err String := do
  match ← driverOf (← kindOf src type) with
  | .cxx => command cxxDepRule { tgt := tgt, src := src, opts := opts }
  | .cc => command ccDepRule { tgt := tgt, src := src, opts := opts }

/-- licant/cxx_make.py:237-247 -/
def executableCommand (tgt : String) (srcs : List String) (opts : CxxOpts) : Except Err String :=
  command execRule { tgt := tgt, srcs := some (" ".intercalate srcs), opts := opts }

/-- licant/cxx_make.py:250-260 -/
def dynlibCommand (tgt : String) (srcs : List String) (opts : CxxOpts) : Except Err String :=
  command dynlibRule { tgt := tgt, srcs := some (" ".intercalate srcs), opts := opts }

/-- licant/cxx_make.py:263-273 -/
def statlibCommand (tgt : String) (srcs : List String) (opts : CxxOpts) : Except Err String :=
  command statlibRule { tgt := tgt, srcs := some (" ".intercalate srcs), opts := opts }

/-- licant/cxx_make.py:161-174 -/
def mocCommand (src tgt : String) (opts : CxxOpts) : Except Err String :=
  command mocRule { tgt := tgt, src := some src, opts := opts }

/-- licant/cxx_make.py:177-190 -/
def uicCommand (src tgt : String) (opts : CxxOpts) : Except Err String :=
  command uicRule { tgt := tgt, src := some src, opts := opts }

/-! ### Specification -/

/-- the words of a command as a shell sees them, if there are no quotes and other special characters -/
def words (s : String) : List String :=
  ((s.toList.splitOnP (· = ' ')).filter (· ≠ [])).map String.ofList

/-- a text without spaces -/
def NoSpace (s : String) : Prop := ' ' ∉ s.toList

/-- a path or name that is one word -/
def Word (s : String) : Prop := s ≠ "" ∧ NoSpace s

/-- option values of a module as they are after preparing it -/
structure Settings (o : Opts) where
  toolchain : Toolchain
  cxxstd : String
  ccstd : String
  debug : String
  optimize : String
  cxxFlags : String
  ccFlags : String
  ldFlags : String
  incs : List String
  defs : List String
  libdirs : List String
  libs : List String
  scripts : List String
  h : o.get "toolchain" = some (.tool toolchain) ∧ o.get "cxxstd" = some (.str cxxstd) ∧
    o.get "ccstd" = some (.str ccstd) ∧ o.get "debug" = some (.str debug) ∧
    o.get "optimize" = some (.str optimize) ∧ o.get "cxx_flags" = some (.str cxxFlags) ∧
    o.get "cc_flags" = some (.str ccFlags) ∧ o.get "ld_flags" = some (.str ldFlags) ∧
    o.get "include_paths" = some (.list (incs.map .str)) ∧ o.get "defines" = some (.list (defs.map .str)) ∧
    o.get "libdirs" = some (.list (libdirs.map .str)) ∧ o.get "libs" = some (.list (libs.map .str)) ∧
    o.get "ldscripts" = some (.list (scripts.map .str))

/-- `e` is what stands after the last dot of the file name, the whole name if it has no dot -/
def ExtOf (src e : String) : Prop :=
  '.' ∉ e.toList ∧ '/' ∉ e.toList ∧ ∃ d s : Str, (d = [] ∨ d.getLast? = some '/') ∧ '/' ∉ s ∧
    (src.toList = d ++ e.toList ∧ s = [] ∨ src.toList = d ++ (s ++ '.' :: e.toList))

/-- a C++ source: so named by its type or, without a type, by its extension -/
def CxxSource (src : String) (type : Option String) : Prop :=
  type = some "cxx" ∨ type = none ∧ ∃ e ∈ ["cpp", "cxx", "cc"], ExtOf src e

/-- a C or assembler source -/
def CSource (src : String) (type : Option String) : Prop :=
  (type = some "cc" ∨ type = some "asm") ∨ type = none ∧ ∃ e ∈ ["c", "asm", "s", "S"], ExtOf src e

/-! ### Words -/

theorem words_append (a b : String) : words (a ++ " " ++ b) = words a ++ words b := by
  unfold words
  rw [← List.map_append, ← List.filter_append]
  congr 2
  have : (a ++ " " ++ b).toList = a.toList ++ ' ' :: b.toList := by simp
  rw [this]
  generalize a.toList = a
  generalize b.toList = b
  induction a with
  | nil => simp [List.splitOnP_cons_eq_if_modifyHead]
  | cons x a ih =>
    rw [List.cons_append, List.splitOnP_cons_eq_if_modifyHead, List.splitOnP_cons_eq_if_modifyHead]
    by_cases hx : x = ' '
    · simp [hx, ih]
    · simp only [hx, decide_false, Bool.false_eq_true, if_false]
      rw [ih]
      cases h : List.splitOnP (fun x => decide (x = ' ')) a with
      | nil => exact absurd h (List.splitOnP_ne_nil _ _)
      | cons y ys => rfl

theorem words_word {s : String} (h : Word s) : words s = [s] := by
  unfold words
  have hs : s.toList.splitOnP (fun c => decide (c = ' ')) = [s.toList] := by
    apply List.splitOnP_eq_singleton
    intro x hx
    simp only [decide_eq_false_iff_not]
    rintro rfl
    exact h.2 hx
  have hne : s.toList ≠ [] := by
    intro e
    exact h.1 (by rw [← String.ofList_toList (s := s), e])
  rw [hs]
  simp [hne]

theorem words_empty : words "" = [] := by
  simp [words]

theorem words_intercalate : ∀ ps : List String, words (" ".intercalate ps) = ps.flatMap words := by
  intro ps
  induction ps with
  | nil => simp [words]
  | cons a ps ih =>
    cases ps with
    | nil => simp
    | cons b ps =>
      rw [String.intercalate_cons_cons, words_append, ih]
      rfl

theorem NoSpace.append {a b : String} (ha : NoSpace a) (hb : NoSpace b) : NoSpace (a ++ b) := by
  simp only [NoSpace, String.toList_append, List.mem_append, not_or]
  exact ⟨ha, hb⟩

theorem words_prefixed {pre : String} (hp : Word pre) {l : List String} (h : ∀ x ∈ l, NoSpace x) :
    (l.map (pre ++ ·)).flatMap words = l.map (pre ++ ·) := by
  induction l with
  | nil => rfl
  | cons x l ih =>
    rw [List.map_cons, List.flatMap_cons, ih fun y hy => h y (by simp [hy]),
      words_word ⟨fun e => hp.1 (String.append_eq_empty_iff.1 e).1, hp.2.append (h x (by simp))⟩]
    rfl

theorem words_list {l : List String} (h : ∀ x ∈ l, Word x) : l.flatMap words = l := by
  induction l with
  | nil => rfl
  | cons x l ih =>
    rw [List.flatMap_cons, ih fun y hy => h y (by simp [hy]), words_word (h x (by simp))]
    rfl

theorem intercalate_join : ∀ (l : List String) (a : String),
    " ".intercalate (a :: l) = a ++ String.join (l.map (" " ++ ·)) := by
  intro l
  induction l with
  | nil => intro a; simp
  | cons x l ih =>
    intro a
    rw [String.intercalate_cons_cons, ih, List.map_cons, String.join_cons]
    simp [String.append_assoc]

theorem words_join (l : List String) : words (String.join (l.map (" " ++ ·))) = l.flatMap words := by
  have := words_intercalate ("" :: l)
  rw [intercalate_join] at this
  simpa [words_empty] using this

/-! ### C59 -/

theorem splitOnP_append_cons {a b : Str} {x : Char} :
    (a ++ x :: b).splitOnP (· = x) = a.splitOnP (· = x) ++ b.splitOnP (· = x) := by
  induction a with
  | nil => simp [List.splitOnP_cons_eq_if_modifyHead]
  | cons y a ih =>
    rw [List.cons_append, List.splitOnP_cons_eq_if_modifyHead, List.splitOnP_cons_eq_if_modifyHead]
    by_cases hx : y = x
    · simp [hx, ih]
    · simp only [hx, decide_false, Bool.false_eq_true, if_false]
      rw [ih]
      cases h : List.splitOnP (fun y => decide (y = x)) a with
      | nil => exact absurd h (List.splitOnP_ne_nil _ _)
      | cons y ys => rfl

theorem splitOnP_none {e : Str} {x : Char} (he : x ∉ e) : e.splitOnP (· = x) = [e] := by
  apply List.splitOnP_eq_singleton
  intro y hy
  simp only [decide_eq_false_iff_not]
  rintro rfl
  exact he hy

theorem extension_of {src e : String} (h : ExtOf src e) : extension src.toList = e.toList := by
  obtain ⟨h1, h2, d, s, hd, hs, (⟨he, _⟩ | he)⟩ := h
  · rw [extension, he, (basename_append hd h2).2, splitOnP_none h1]
    rfl
  · have hb : '/' ∉ s ++ '.' :: e.toList := by simp [hs, h2]
    rw [extension, he, (basename_append hd hb).2, splitOnP_append_cons, splitOnP_none h1]
    simp [List.getLastD_eq_getLast?]

theorem extOf_exists (src : String) : ExtOf src (String.ofList (extension src.toList)) := by
  have hsrc := head_append_basename src.toList
  have hb := basename_noslash src.toList
  have hh : head src.toList = [] ∨ (head src.toList).getLast? = some '/' := by
    rcases head_spec src.toList with h | ⟨q, h⟩
    · exact Or.inl h
    · exact Or.inr (by rw [h]; simp)
  by_cases hdot : '.' ∈ basename src.toList
  · obtain ⟨as, bs, hab, hn⟩ := List.eq_append_cons_of_mem (List.mem_reverse.2 hdot)
    have hab' : basename src.toList = bs.reverse ++ '.' :: as.reverse := by
      rw [← List.reverse_reverse (basename src.toList), hab]
      simp
    have he : extension src.toList = as.reverse := by
      rw [extension, hab', splitOnP_append_cons, splitOnP_none (e := as.reverse) (by simpa using hn)]
      simp [List.getLastD_eq_getLast?]
    rw [hab'] at hb
    refine ⟨by simpa [he] using hn, ?_, head src.toList, bs.reverse, hh, ?_, Or.inr ?_⟩
    · rw [he]; intro hm; exact hb (by simp only [String.toList_ofList] at hm; simp [List.mem_reverse.1 hm])
    · intro hm; exact hb (by simp [List.mem_reverse.1 hm])
    · rw [he, String.toList_ofList, ← hab', hsrc]
  · have he : extension src.toList = basename src.toList := by
      rw [extension, splitOnP_none hdot]; rfl
    refine ⟨by simpa [he] using hdot, by simpa [he] using hb, head src.toList, [], hh, by simp, Or.inl ⟨?_, rfl⟩⟩
    rw [he, String.toList_ofList, hsrc]

theorem extOf_iff (src e : String) : ExtOf src e ↔ extension src.toList = e.toList := by
  refine ⟨extension_of, fun h => ?_⟩
  have := extOf_exists src
  rwa [h, String.ofList_toList] at this

/-- **C59**: `object` and `depend` use the C++ compiler for C++ sources, the C compiler for C and assembler sources and
end the program for everything else.  Every file name has exactly one extension in this sense. -/
theorem C59_driver (src tgt : String) (c : CxxOpts) (type : Option String) :
    (∃! e, ExtOf src e) ∧ ¬ (CxxSource src type ∧ CSource src type) ∧
    (CxxSource src type →
      objectCommand src tgt c type = command cxxObjRule { tgt := tgt, src := src, opts := c } ∧
      dependCommand src tgt c type = command cxxDepRule { tgt := tgt, src := src, opts := c }) ∧
    (CSource src type →
      objectCommand src tgt c type = command ccObjRule { tgt := tgt, src := src, opts := c } ∧
      dependCommand src tgt c type = command ccDepRule { tgt := tgt, src := src, opts := c }) ∧
    (¬ CxxSource src type → ¬ CSource src type →
      objectCommand src tgt c type = .error .exit ∧ dependCommand src tgt c type = .error .exit) := by
  have hx : (∃ e ∈ ["cpp", "cxx", "cc"], ExtOf src e) ↔ extension src.toList ∈ cxxExts := by
    simp [extOf_iff, cxxExts]
  have hc : (∃ e ∈ ["c", "asm", "s", "S"], ExtOf src e) ↔
      extension src.toList ∈ ccExts ∨ extension src.toList ∈ asmExts := by
    simp [extOf_iff, ccExts, asmExts]
  have hd : ∀ e, e ∈ cxxExts → ¬ (e ∈ ccExts ∨ e ∈ asmExts) := by
    intro e he
    simp only [cxxExts, List.mem_cons, List.not_mem_nil, or_false] at he
    rcases he with rfl | rfl | rfl <;> decide
  refine ⟨⟨_, extOf_exists src, fun e he => ?_⟩, ?_⟩
  · rw [extension_of he, String.ofList_toList]
  cases type with
  | some t =>
    by_cases h1 : t = "cxx"
    · subst h1
      exact ⟨by simp [CSource], fun _ => ⟨rfl, rfl⟩, by simp [CSource], by simp [CxxSource]⟩
    by_cases h2 : t = "cc"
    · subst h2
      exact ⟨by simp [CxxSource], by simp [CxxSource], fun _ => ⟨rfl, rfl⟩, by simp [CSource]⟩
    by_cases h3 : t = "asm"
    · subst h3
      exact ⟨by simp [CxxSource], by simp [CxxSource], fun _ => ⟨rfl, rfl⟩, by simp [CSource]⟩
    refine ⟨by simp [CxxSource, h1], by simp [CxxSource, h1], by simp [CSource, h2, h3], fun _ _ => ?_⟩
    simp [objectCommand, dependCommand, kindOf, driverOf, h1, h2, h3, bind, Except.bind]
  | none =>
    simp only [CxxSource, CSource, reduceCtorEq, false_or, true_and, or_self, hx, hc]
    refine ⟨fun h => hd _ h.1 h.2, fun h => ?_, fun h => ?_, fun h1 h2 => ?_⟩
    · simp [objectCommand, dependCommand, kindOf, driverOf, h, bind, Except.bind]
    · have h' : extension src.toList ∉ cxxExts := fun h' => hd _ h' h
      rcases h with h | h
      · simp [objectCommand, dependCommand, kindOf, driverOf, h, h', bind, Except.bind]
      · by_cases h2 : extension src.toList ∈ ccExts <;>
          simp [objectCommand, dependCommand, kindOf, driverOf, h, h', h2, bind, Except.bind]
    · rw [not_or] at h2
      simp [objectCommand, dependCommand, kindOf, h1, h2, bind, Except.bind]

/-- the three cases occur; a file that is named like an extension counts as having it -/
example : CxxSource "src/a.b.cpp" none ∧ CSource "boot.S" none ∧ CSource "a.cpp" (some "cc") ∧ CxxSource "src/cc" none ∧
    ¬ CxxSource "a.cpp/README" none ∧ ¬ CSource "a.cpp/README" none := by
  simp only [CxxSource, CSource, extOf_iff]
  decide +kernel

/-! ### C58 -/

theorem strs_map (l : List String) : strs (.list (l.map .str)) = .ok l := by
  unfold strs
  simp only
  induction l with
  | nil => rfl
  | cons x l ih =>
    rw [List.map_cons, List.mapM_cons, ih]
    rfl

theorem cxxOptions_eq (home : String → String) {o : Opts} (S : Settings o) : cxxOptions home o = .ok
    { toolchain := S.toolchain
      incopt := flagPrefix "-I" S.incs
      defopt := flagPrefix "-D" S.defs
      ldscripts := flagPrefix "-T" S.scripts
      cxxFlags := " ".intercalate ["-std=" ++ S.cxxstd, S.debug, S.cxxFlags]
      ccFlags := " ".intercalate ["-std=" ++ S.ccstd, S.debug, S.ccFlags]
      ldFlags := S.ldFlags
      ldSrcsAdd := String.join (S.libdirs.map fun l => " -L" ++ home l) ++ String.join (S.libs.map fun l => " -l" ++ l)
      optimize := S.optimize } := by
  obtain ⟨h1, h2, h3, h4, h5, h6, h7, h8, h9, h10, h11, h12, h13⟩ := S.h
  simp only [cxxOptions, text, texts, h1, h2, h3, h4, h5, h6, h7, h8, h9, h10, h11, h12, h13, strs_map, bind,
    Except.bind, pure, Except.pure]

theorem words_flags {pre : String} (hp : Word pre) {l : List String} (h : ∀ x ∈ l, NoSpace x) :
    words (flagPrefix pre l) = l.map (pre ++ ·) := by
  rw [flagPrefix, words_intercalate, words_prefixed hp h]

theorem fmt_lit (look : Str → Option Str) : ∀ (l r : Str), (∀ c ∈ l, c ≠ '{' ∧ c ≠ '}') →
    fmt look none (l ++ r) = (do return l ++ (← fmt look none r)) := by
  intro l
  induction l with
  | nil =>
    intro r _
    cases h : fmt look none r <;> simp [h, bind, Except.bind, pure, Except.pure]
  | cons c l ih =>
    intro r h
    obtain ⟨h1, h2⟩ := h c (by simp)
    rw [List.cons_append, fmt, ih r fun x hx => h x (by simp [hx])]
    · cases fmt look none r <;> simp [bind, Except.bind, pure, Except.pure]
    all_goals simp_all

theorem fmt_field (look : Str → Option Str) : ∀ (k acc r v : Str), (∀ c ∈ k, c ≠ '{' ∧ c ≠ '}') →
    look (acc.reverse ++ k) = some v →
    fmt look (some acc) (k ++ '}' :: r) = (do return v ++ (← fmt look none r)) := by
  intro k
  induction k with
  | nil =>
    intro acc r v _ h
    rw [List.append_nil] at h
    rw [List.nil_append, fmt, h]
  | cons c k ih =>
    intro acc r v h hv
    obtain ⟨h1, h2⟩ := h c (by simp)
    rw [List.cons_append, fmt]
    · exact ih (c :: acc) r v (fun x hx => h x (by simp [hx])) (by simpa using hv)
    · simpa using h2

/-- a word of a rule, fixed or a field, and what it is replaced by -/
inductive Tok (look : Str → Option Str) : String → String → Prop
  | lit {s : String} : (s.toList.all fun c => c ≠ '{' ∧ c ≠ '}') = true → Tok look s s
  | field {s : String} {k : Str} {v : String} : (k.all fun c => c ≠ '{' ∧ c ≠ '}') = true → k ≠ [] →
      s.toList = '{' :: (k ++ ['}']) → look k = some v.toList → Tok look s v

theorem fmt_tok {look : Str → Option Str} {s v : String} (h : Tok look s v) (r : Str) :
    fmt look none (s.toList ++ r) = (do return v.toList ++ (← fmt look none r)) := by
  cases h with
  | lit h =>
    apply fmt_lit
    intro c hc
    simpa using List.all_eq_true.1 h c hc
  | field h1 h2 h3 h4 =>
    rename_i k
    obtain ⟨c, k, rfl⟩ := List.exists_cons_of_ne_nil h2
    have hk : ∀ x ∈ c :: k, x ≠ '{' ∧ x ≠ '}' := by
      intro x hx
      simpa using List.all_eq_true.1 h1 x hx
    have hc := (hk c (by simp)).1
    have := fmt_field look (c :: k) [] r v.toList hk (by simpa using h4)
    rw [h3, ← this]
    simp only [List.cons_append, List.append_assoc, List.nil_append]
    rw [fmt]
    simpa using hc

/-- the words of a rule are replaced one by one -/
theorem command_toks (rule : String) (t : CTarget) (toks : List (String × String))
    (hr : rule = " ".intercalate (toks.map (·.1))) (h : ∀ p ∈ toks, Tok t.look p.1 p.2) :
    command rule t = .ok (" ".intercalate (toks.map (·.2))) := by
  have key : ∀ (toks : List (String × String)) (p : String × String), Tok t.look p.1 p.2 →
      (∀ p ∈ toks, Tok t.look p.1 p.2) →
      fmt t.look none (" ".intercalate ((p :: toks).map (·.1))).toList =
        .ok (" ".intercalate ((p :: toks).map (·.2))).toList := by
    intro toks
    induction toks with
    | nil =>
      intro p hp _
      have := fmt_tok hp []
      simp only [List.append_nil] at this
      simp only [List.map_cons, List.map_nil, String.intercalate_singleton, this]
      simp [fmt, bind, Except.bind, pure, Except.pure]
    | cons q toks ih =>
      intro p hp hq
      have h2 := ih q (hq q (by simp)) fun x hx => hq x (by simp [hx])
      simp only [List.map_cons] at h2 ⊢
      rw [String.intercalate_cons_cons, String.toList_append, String.toList_append, List.append_assoc, fmt_tok hp,
        fmt_lit _ _ _ (by decide), h2, String.intercalate_cons_cons]
      simp [bind, Except.bind, pure, Except.pure]
  subst hr
  unfold command
  cases toks with
  | nil => rfl
  | cons p toks =>
    rw [key toks p (h p (by simp)) fun x hx => h x (by simp [hx])]
    show Except.ok _ = _
    rw [String.ofList_toList]

theorem tok_field {t : CTarget} {s v : String} (k : Str) (h : s.toList = '{' :: (k ++ ['}']))
    (h1 : (k.all fun c => c ≠ '{' ∧ c ≠ '}') = true) (h2 : k ≠ []) (h3 : t.look k = some v.toList) : Tok t.look s v :=
  .field h1 h2 h h3

theorem cxxObj_eq (c : CxxOpts) (src tgt : String) :
    command cxxObjRule { tgt := tgt, src := some src, opts := c } = .ok (" ".intercalate [c.toolchain.cxx, "-c",
      src, "-o", tgt, c.incopt, c.defopt, c.cxxFlags, c.optimize]) := by
  have hr : cxxObjRule = " ".intercalate ["{opts.toolchain.cxx}", "-c", "{src}", "-o", "{tgt}", "{opts.incopt}",
      "{opts.defopt}", "{opts.cxx_flags}", "{opts.optimize}"] := by
    decide +kernel
  refine command_toks _ _ [("{opts.toolchain.cxx}", c.toolchain.cxx), ("-c", "-c"), ("{src}", src), ("-o", "-o"),
    ("{tgt}", tgt), ("{opts.incopt}", c.incopt), ("{opts.defopt}", c.defopt), ("{opts.cxx_flags}", c.cxxFlags),
    ("{opts.optimize}", c.optimize)] hr ?_
  simp only [List.forall_mem_cons]
  exact ⟨tok_field "opts.toolchain.cxx".toList rfl rfl (by decide) rfl, .lit rfl, tok_field "src".toList rfl rfl (by
    decide) rfl, .lit rfl, tok_field "tgt".toList rfl rfl (by decide) rfl, tok_field "opts.incopt".toList rfl rfl (by
    decide) rfl, tok_field "opts.defopt".toList rfl rfl (by decide) rfl, tok_field "opts.cxx_flags".toList rfl rfl (by
    decide) rfl, tok_field "opts.optimize".toList rfl rfl (by decide) rfl, by simp⟩

theorem ccObj_eq (c : CxxOpts) (src tgt : String) :
    command ccObjRule { tgt := tgt, src := some src, opts := c } = .ok (" ".intercalate [c.toolchain.cc, "-c",
      src, "-o", tgt, c.incopt, c.defopt, c.ccFlags, c.optimize]) := by
  have hr : ccObjRule = " ".intercalate ["{opts.toolchain.cc}", "-c", "{src}", "-o", "{tgt}", "{opts.incopt}",
      "{opts.defopt}", "{opts.cc_flags}", "{opts.optimize}"] := by
    decide +kernel
  refine command_toks _ _ [("{opts.toolchain.cc}", c.toolchain.cc), ("-c", "-c"), ("{src}", src), ("-o", "-o"),
    ("{tgt}", tgt), ("{opts.incopt}", c.incopt), ("{opts.defopt}", c.defopt), ("{opts.cc_flags}", c.ccFlags),
    ("{opts.optimize}", c.optimize)] hr ?_
  simp only [List.forall_mem_cons]
  exact ⟨tok_field "opts.toolchain.cc".toList rfl rfl (by decide) rfl, .lit rfl, tok_field "src".toList rfl rfl (by
    decide) rfl, .lit rfl, tok_field "tgt".toList rfl rfl (by decide) rfl, tok_field "opts.incopt".toList rfl rfl (by
    decide) rfl, tok_field "opts.defopt".toList rfl rfl (by decide) rfl, tok_field "opts.cc_flags".toList rfl rfl (by
    decide) rfl, tok_field "opts.optimize".toList rfl rfl (by decide) rfl, by simp⟩

theorem cxxDep_eq (c : CxxOpts) (src tgt : String) :
    command cxxDepRule { tgt := tgt, src := some src, opts := c } = .ok (" ".intercalate [c.toolchain.cxx, "-MM",
      src, ">", tgt, c.incopt, c.defopt, c.cxxFlags]) := by
  have hr : cxxDepRule = " ".intercalate ["{opts.toolchain.cxx}", "-MM", "{src}", ">", "{tgt}", "{opts.incopt}",
      "{opts.defopt}", "{opts.cxx_flags}"] := by
    decide +kernel
  refine command_toks _ _ [("{opts.toolchain.cxx}", c.toolchain.cxx), ("-MM", "-MM"), ("{src}", src), (">", ">"),
    ("{tgt}", tgt), ("{opts.incopt}", c.incopt), ("{opts.defopt}", c.defopt), ("{opts.cxx_flags}", c.cxxFlags)] hr ?_
  simp only [List.forall_mem_cons]
  exact ⟨tok_field "opts.toolchain.cxx".toList rfl rfl (by decide) rfl, .lit rfl, tok_field "src".toList rfl rfl (by
    decide) rfl, .lit rfl, tok_field "tgt".toList rfl rfl (by decide) rfl, tok_field "opts.incopt".toList rfl rfl (by
    decide) rfl, tok_field "opts.defopt".toList rfl rfl (by decide) rfl, tok_field "opts.cxx_flags".toList rfl rfl (by
    decide) rfl, by simp⟩

theorem ccDep_eq (c : CxxOpts) (src tgt : String) :
    command ccDepRule { tgt := tgt, src := some src, opts := c } = .ok (" ".intercalate [c.toolchain.cc, "-MM",
      src, ">", tgt, c.incopt, c.defopt, c.ccFlags]) := by
  have hr : ccDepRule = " ".intercalate ["{opts.toolchain.cc}", "-MM", "{src}", ">", "{tgt}", "{opts.incopt}",
      "{opts.defopt}", "{opts.cc_flags}"] := by
    decide +kernel
  refine command_toks _ _ [("{opts.toolchain.cc}", c.toolchain.cc), ("-MM", "-MM"), ("{src}", src), (">", ">"),
    ("{tgt}", tgt), ("{opts.incopt}", c.incopt), ("{opts.defopt}", c.defopt), ("{opts.cc_flags}", c.ccFlags)] hr ?_
  simp only [List.forall_mem_cons]
  exact ⟨tok_field "opts.toolchain.cc".toList rfl rfl (by decide) rfl, .lit rfl, tok_field "src".toList rfl rfl (by
    decide) rfl, .lit rfl, tok_field "tgt".toList rfl rfl (by decide) rfl, tok_field "opts.incopt".toList rfl rfl (by
    decide) rfl, tok_field "opts.defopt".toList rfl rfl (by decide) rfl, tok_field "opts.cc_flags".toList rfl rfl (by
    decide) rfl, by simp⟩

theorem exec_eq (c : CxxOpts) (srcs tgt : String) :
    command execRule { tgt := tgt, srcs := some srcs, opts := c } = .ok (" ".intercalate [c.toolchain.cxx,
      c.ldFlags, "-Wl,--start-group", srcs, c.ldSrcsAdd, "-Wl,--end-group", "-o", tgt, c.ldscripts]) := by
  have hr : execRule = " ".intercalate ["{opts.toolchain.cxx}", "{opts.ld_flags}", "-Wl,--start-group", "{srcs}",
      "{opts.ld_srcs_add}", "-Wl,--end-group", "-o", "{tgt}", "{opts.ldscripts}"] := by
    decide +kernel
  refine command_toks _ _ [("{opts.toolchain.cxx}", c.toolchain.cxx), ("{opts.ld_flags}", c.ldFlags),
    ("-Wl,--start-group", "-Wl,--start-group"), ("{srcs}", srcs), ("{opts.ld_srcs_add}", c.ldSrcsAdd),
    ("-Wl,--end-group", "-Wl,--end-group"), ("-o", "-o"), ("{tgt}", tgt), ("{opts.ldscripts}", c.ldscripts)] hr ?_
  simp only [List.forall_mem_cons]
  exact ⟨tok_field "opts.toolchain.cxx".toList rfl rfl (by decide) rfl, tok_field "opts.ld_flags".toList rfl rfl (by
    decide) rfl, .lit rfl, tok_field "srcs".toList rfl rfl (by decide) rfl, tok_field "opts.ld_srcs_add".toList rfl
    rfl (by decide) rfl, .lit rfl, .lit rfl, tok_field "tgt".toList rfl rfl (by decide) rfl, tok_field
    "opts.ldscripts".toList rfl rfl (by decide) rfl, by simp⟩

theorem dynlib_eq (c : CxxOpts) (srcs tgt : String) :
    command dynlibRule { tgt := tgt, srcs := some srcs, opts := c } = .ok (" ".intercalate [c.toolchain.cxx,
      "--shared", c.ldFlags, "-Wl,--start-group", srcs, c.ldSrcsAdd, "-Wl,--end-group", "-o", tgt, c.ldscripts]) := by
  have hr : dynlibRule = " ".intercalate ["{opts.toolchain.cxx}", "--shared", "{opts.ld_flags}", "-Wl,--start-group",
      "{srcs}", "{opts.ld_srcs_add}", "-Wl,--end-group", "-o", "{tgt}", "{opts.ldscripts}"] := by
    decide +kernel
  refine command_toks _ _ [("{opts.toolchain.cxx}", c.toolchain.cxx), ("--shared", "--shared"), ("{opts.ld_flags}",
    c.ldFlags), ("-Wl,--start-group", "-Wl,--start-group"), ("{srcs}", srcs), ("{opts.ld_srcs_add}", c.ldSrcsAdd),
    ("-Wl,--end-group", "-Wl,--end-group"), ("-o", "-o"), ("{tgt}", tgt), ("{opts.ldscripts}", c.ldscripts)] hr ?_
  simp only [List.forall_mem_cons]
  exact ⟨tok_field "opts.toolchain.cxx".toList rfl rfl (by decide) rfl, .lit rfl, tok_field "opts.ld_flags".toList
    rfl rfl (by decide) rfl, .lit rfl, tok_field "srcs".toList rfl rfl (by decide) rfl, tok_field
    "opts.ld_srcs_add".toList rfl rfl (by decide) rfl, .lit rfl, .lit rfl, tok_field "tgt".toList rfl rfl (by decide)
    rfl, tok_field "opts.ldscripts".toList rfl rfl (by decide) rfl, by simp⟩

theorem statlib_eq (c : CxxOpts) (srcs tgt : String) :
    command statlibRule { tgt := tgt, srcs := some srcs, opts := c } = .ok (" ".intercalate [c.toolchain.ar,
      "rcs", tgt, srcs]) := by
  have hr : statlibRule = " ".intercalate ["{opts.toolchain.ar}", "rcs", "{tgt}", "{srcs}"] := by decide +kernel
  refine command_toks _ _ [("{opts.toolchain.ar}", c.toolchain.ar), ("rcs", "rcs"), ("{tgt}", tgt), ("{srcs}",
    srcs)] hr ?_
  simp only [List.forall_mem_cons]
  exact ⟨tok_field "opts.toolchain.ar".toList rfl rfl (by decide) rfl, .lit rfl, tok_field "tgt".toList rfl rfl (by
    decide) rfl, tok_field "srcs".toList rfl rfl (by decide) rfl, by simp⟩

theorem moc_eq (c : CxxOpts) (src tgt : String) :
    command mocRule { tgt := tgt, src := some src, opts := c } = .ok (" ".intercalate [c.toolchain.moc.getD
      "None", src, ">", tgt]) := by
  have hr : mocRule = " ".intercalate ["{opts.toolchain.moc}", "{src}", ">", "{tgt}"] := by decide +kernel
  refine command_toks _ _ [("{opts.toolchain.moc}", c.toolchain.moc.getD "None"), ("{src}", src), (">", ">"),
    ("{tgt}", tgt)] hr ?_
  simp only [List.forall_mem_cons]
  exact ⟨tok_field "opts.toolchain.moc".toList rfl rfl (by decide) rfl, tok_field "src".toList rfl rfl (by decide)
    rfl, .lit rfl, tok_field "tgt".toList rfl rfl (by decide) rfl, by simp⟩

theorem uic_eq (c : CxxOpts) (src tgt : String) :
    command uicRule { tgt := tgt, src := some src, opts := c } = .ok (" ".intercalate [c.toolchain.uic.getD
      "None", src, ">", tgt]) := by
  have hr : uicRule = " ".intercalate ["{opts.toolchain.uic}", "{src}", ">", "{tgt}"] := by decide +kernel
  refine command_toks _ _ [("{opts.toolchain.uic}", c.toolchain.uic.getD "None"), ("{src}", src), (">", ">"),
    ("{tgt}", tgt)] hr ?_
  simp only [List.forall_mem_cons]
  exact ⟨tok_field "opts.toolchain.uic".toList rfl rfl (by decide) rfl, tok_field "src".toList rfl rfl (by decide)
    rfl, .lit rfl, tok_field "tgt".toList rfl rfl (by decide) rfl, by simp⟩

/-- the command of an object, as words: the compiler, `-c`, the source, `-o`, the object, and the flags in order -/
theorem object_words {rule : String} {c : CxxOpts} {src tgt drv flags : String}
    (h : rule = cxxObjRule ∧ drv = c.toolchain.cxx ∧ flags = c.cxxFlags ∨
      rule = ccObjRule ∧ drv = c.toolchain.cc ∧ flags = c.ccFlags) :
    ∃ cmd, command rule { tgt := tgt, src := some src, opts := c } = .ok cmd ∧
      words cmd = words drv ++ ["-c"] ++ words src ++ ["-o"] ++ words tgt ++ words c.incopt ++ words c.defopt ++
        words flags ++ words c.optimize := by
  have h : command rule { tgt := tgt, src := some src, opts := c } =
      .ok (" ".intercalate [drv, "-c", src, "-o", tgt, c.incopt, c.defopt, flags, c.optimize]) := by
    rcases h with ⟨rfl, rfl, rfl⟩ | ⟨rfl, rfl, rfl⟩
    · exact cxxObj_eq c src tgt
    · exact ccObj_eq c src tgt
  refine ⟨_, h, ?_⟩
  rw [words_intercalate]
  have hc : words "-c" = ["-c"] := by decide +kernel
  have ho : words "-o" = ["-o"] := by decide +kernel
  simp [hc, ho]

/-- the same for dependency files -/
theorem depend_words {rule : String} {c : CxxOpts} {src tgt drv flags : String}
    (h : rule = cxxDepRule ∧ drv = c.toolchain.cxx ∧ flags = c.cxxFlags ∨
      rule = ccDepRule ∧ drv = c.toolchain.cc ∧ flags = c.ccFlags) :
    ∃ cmd, command rule { tgt := tgt, src := some src, opts := c } = .ok cmd ∧
      words cmd = words drv ++ ["-MM"] ++ words src ++ [">"] ++ words tgt ++ words c.incopt ++ words c.defopt ++
        words flags := by
  have h : command rule { tgt := tgt, src := some src, opts := c } =
      .ok (" ".intercalate [drv, "-MM", src, ">", tgt, c.incopt, c.defopt, flags]) := by
    rcases h with ⟨rfl, rfl, rfl⟩ | ⟨rfl, rfl, rfl⟩
    · exact cxxDep_eq c src tgt
    · exact ccDep_eq c src tgt
  refine ⟨_, h, ?_⟩
  rw [words_intercalate]
  have hc : words "-MM" = ["-MM"] := by decide +kernel
  have ho : words ">" = [">"] := by decide +kernel
  simp [hc, ho]

/-- **C58** for objects and dependency files: the options of a module give a command that consists of the compiler,
input and output, a `-I` for each include path and a `-D` for each define, in the given order, and then the words of the
language standard, debug, flags and (for objects) optimize options. -/
theorem C58_compile (home : String → String) {o : Opts} (S : Settings o) :
    ∃ c, cxxOptions home o = .ok c ∧
    ∀ (src tgt : String) (type : Option String), Word src → Word tgt → (∀ x ∈ S.incs, NoSpace x) →
      (∀ x ∈ S.defs, NoSpace x) → ∀ drv std flags : String,
      (CxxSource src type ∧ drv = S.toolchain.cxx ∧ std = S.cxxstd ∧ flags = S.cxxFlags ∨
        CSource src type ∧ drv = S.toolchain.cc ∧ std = S.ccstd ∧ flags = S.ccFlags) →
      (∃ cmd, objectCommand src tgt c type = .ok cmd ∧
        words cmd = words drv ++ ["-c", src, "-o", tgt] ++ S.incs.map ("-I" ++ ·) ++ S.defs.map ("-D" ++ ·) ++
          words ("-std=" ++ std) ++ words S.debug ++ words flags ++ words S.optimize) ∧
      ∃ cmd, dependCommand src tgt c type = .ok cmd ∧
        words cmd = words drv ++ ["-MM", src, ">", tgt] ++ S.incs.map ("-I" ++ ·) ++ S.defs.map ("-D" ++ ·) ++
          words ("-std=" ++ std) ++ words S.debug ++ words flags := by
  refine ⟨_, cxxOptions_eq home S, ?_⟩
  intro src tgt type hs ht hi hd drv std flags h
  obtain ⟨_, _, h3, h4, _⟩ := C59_driver src tgt
    { toolchain := S.toolchain
      incopt := flagPrefix "-I" S.incs
      defopt := flagPrefix "-D" S.defs
      ldscripts := flagPrefix "-T" S.scripts
      cxxFlags := " ".intercalate ["-std=" ++ S.cxxstd, S.debug, S.cxxFlags]
      ccFlags := " ".intercalate ["-std=" ++ S.ccstd, S.debug, S.ccFlags]
      ldFlags := S.ldFlags
      ldSrcsAdd := String.join (S.libdirs.map fun l => " -L" ++ home l) ++ String.join (S.libs.map fun l => " -l" ++ l)
      optimize := S.optimize } type
  have hI : Word "-I" := ⟨by decide, by unfold NoSpace; decide⟩
  have hD : Word "-D" := ⟨by decide, by unfold NoSpace; decide⟩
  rcases h with ⟨h, rfl, rfl, rfl⟩ | ⟨h, rfl, rfl, rfl⟩
  · rw [(h3 h).1, (h3 h).2]
    obtain ⟨cmd, hc, hw⟩ := object_words (rule := cxxObjRule) (src := src) (tgt := tgt) (Or.inl ⟨rfl, rfl, rfl⟩)
    obtain ⟨cmd', hc', hw'⟩ := depend_words (rule := cxxDepRule) (src := src) (tgt := tgt) (Or.inl ⟨rfl, rfl, rfl⟩)
    refine ⟨⟨cmd, hc, ?_⟩, cmd', hc', ?_⟩
    · rw [hw, words_word hs, words_word ht, words_flags hI hi, words_flags hD hd, words_intercalate]
      simp
    · rw [hw', words_word hs, words_word ht, words_flags hI hi, words_flags hD hd, words_intercalate]
      simp
  · rw [(h4 h).1, (h4 h).2]
    obtain ⟨cmd, hc, hw⟩ := object_words (rule := ccObjRule) (src := src) (tgt := tgt) (Or.inr ⟨rfl, rfl, rfl⟩)
    obtain ⟨cmd', hc', hw'⟩ := depend_words (rule := ccDepRule) (src := src) (tgt := tgt) (Or.inr ⟨rfl, rfl, rfl⟩)
    refine ⟨⟨cmd, hc, ?_⟩, cmd', hc', ?_⟩
    · rw [hw, words_word hs, words_word ht, words_flags hI hi, words_flags hD hd, words_intercalate]
      simp
    · rw [hw', words_word hs, words_word ht, words_flags hI hi, words_flags hD hd, words_intercalate]
      simp

/-- **C58** for executables and libraries -/
theorem C58_link (home : String → String) {o : Opts} (S : Settings o) :
    ∃ c, cxxOptions home o = .ok c ∧
    ∀ (tgt : String) (srcs : List String), Word tgt → (∀ x ∈ srcs, Word x) → (∀ x ∈ S.libdirs, NoSpace (home x)) →
      (∀ x ∈ S.libs, NoSpace x) → (∀ x ∈ S.scripts, NoSpace x) →
      (∃ cmd, executableCommand tgt srcs c = .ok cmd ∧
        words cmd = words S.toolchain.cxx ++ words S.ldFlags ++ ["-Wl,--start-group"] ++ srcs ++
          S.libdirs.map (fun d => "-L" ++ home d) ++ S.libs.map ("-l" ++ ·) ++ ["-Wl,--end-group", "-o", tgt] ++
          S.scripts.map ("-T" ++ ·)) ∧
      (∃ cmd, dynlibCommand tgt srcs c = .ok cmd ∧
        words cmd = words S.toolchain.cxx ++ ["--shared"] ++ words S.ldFlags ++ ["-Wl,--start-group"] ++ srcs ++
          S.libdirs.map (fun d => "-L" ++ home d) ++ S.libs.map ("-l" ++ ·) ++ ["-Wl,--end-group", "-o", tgt] ++
          S.scripts.map ("-T" ++ ·)) ∧
      ∃ cmd, statlibCommand tgt srcs c = .ok cmd ∧
        words cmd = words S.toolchain.ar ++ ["rcs", tgt] ++ srcs := by
  refine ⟨_, cxxOptions_eq home S, ?_⟩
  intro tgt srcs ht hs hd hl hsc
  have hT : Word "-T" := ⟨by decide, by unfold NoSpace; decide⟩
  have hL : Word "-L" := ⟨by decide, by unfold NoSpace; decide⟩
  have hl' : Word "-l" := ⟨by decide, by unfold NoSpace; decide⟩
  have hadd : words (String.join (S.libdirs.map fun l => " -L" ++ home l) ++ String.join (S.libs.map fun l => " -l" ++ l)) =
      S.libdirs.map (fun d => "-L" ++ home d) ++ S.libs.map ("-l" ++ ·) := by
    have : String.join (S.libdirs.map fun l => " -L" ++ home l) ++ String.join (S.libs.map fun l => " -l" ++ l) =
        String.join (((S.libdirs.map home).map ("-L" ++ ·) ++ S.libs.map ("-l" ++ ·)).map (" " ++ ·)) := by
      rw [List.map_append, List.map_map, List.map_map, List.map_map, String.join_append]
      congr 2
    rw [this, words_join, List.flatMap_append, words_prefixed hL, words_prefixed hl' hl, List.map_map]
    · rfl
    · intro x hx
      obtain ⟨y, hy, rfl⟩ := List.mem_map.1 hx
      exact hd y hy
  have w1 : words "-Wl,--start-group" = ["-Wl,--start-group"] := by decide +kernel
  have w2 : words "-Wl,--end-group" = ["-Wl,--end-group"] := by decide +kernel
  have w3 : words "-o" = ["-o"] := by decide +kernel
  have w4 : words "--shared" = ["--shared"] := by decide +kernel
  have w5 : words "rcs" = ["rcs"] := by decide +kernel
  have hscw : words (flagPrefix "-T" S.scripts) = S.scripts.map ("-T" ++ ·) := words_flags hT hsc
  have hsr : words (" ".intercalate srcs) = srcs := by rw [words_intercalate, words_list hs]
  refine ⟨⟨_, exec_eq _ _ _, ?_⟩, ⟨_, dynlib_eq _ _ _, ?_⟩, ⟨_, statlib_eq _ _ _, ?_⟩⟩
  · rw [words_intercalate]
    simp only [List.flatMap_cons, List.flatMap_nil, w1, w2, w3, hadd, hscw, hsr, words_word ht]
    simp
  · rw [words_intercalate]
    simp only [List.flatMap_cons, List.flatMap_nil, w1, w2, w3, w4, hadd, hscw, hsr, words_word ht]
    simp
  · rw [words_intercalate]
    simp only [List.flatMap_cons, List.flatMap_nil, w5, hsr, words_word ht]
    simp

/-- **C58** for Qt: `moc` and `uic` write their output for the header or form into the target.  A toolchain without
these tools runs a program called `None`. -/
theorem C58_qt (c : CxxOpts) {src tgt : String} (hs : Word src) (ht : Word tgt) :
    (∃ cmd, mocCommand src tgt c = .ok cmd ∧ words cmd = words (c.toolchain.moc.getD "None") ++ [src, ">", tgt]) ∧
    ∃ cmd, uicCommand src tgt c = .ok cmd ∧ words cmd = words (c.toolchain.uic.getD "None") ++ [src, ">", tgt] := by
  have w : words ">" = [">"] := by decide +kernel
  refine ⟨⟨_, moc_eq c src tgt, ?_⟩, _, uic_eq c src tgt, ?_⟩
  · rw [words_intercalate]
    simp only [List.flatMap_cons, List.flatMap_nil, w, words_word hs, words_word ht]
    simp
  · rw [words_intercalate]
    simp only [List.flatMap_cons, List.flatMap_nil, w, words_word hs, words_word ht]
    simp

/-- options with two include paths, a define, a library and flags; the rest are the defaults -/
def cmdOpts : Opts := setDefaults ⟨"c++", "cc", "ar", none, none⟩
  [("include_paths", .list [.str "inc", .str "/p/sub"]), ("defines", .list [.str "N=1"]), ("libs", .list [.str "m"]),
   ("libdirs", .list [.str "lib"]), ("cxx_flags", .str " -Wall  -Wextra")]

def cmdSettings : Settings cmdOpts where
  toolchain := ⟨"c++", "cc", "ar", none, none⟩
  cxxstd := "c++17"
  ccstd := "c11"
  debug := "-g"
  optimize := ""
  cxxFlags := " -Wall  -Wextra"
  ccFlags := ""
  ldFlags := ""
  incs := ["inc", "/p/sub"]
  defs := ["N=1"]
  libdirs := ["lib"]
  libs := ["m"]
  scripts := []
  h := ⟨rfl, rfl, rfl, rfl, rfl, rfl, rfl, rfl, rfl, rfl, rfl, rfl, rfl⟩

/-- the hypotheses of `C58_compile` hold; the command as words -/
example : ∃ c cmd, cxxOptions id cmdOpts = .ok c ∧ objectCommand "src/a.cpp" "/p/build/a.o" c none = .ok cmd ∧
    words cmd = ["c++", "-c", "src/a.cpp", "-o", "/p/build/a.o", "-Iinc", "-I/p/sub", "-DN=1", "-std=c++17", "-g",
      "-Wall", "-Wextra"] := by
  obtain ⟨c, hc, h⟩ := C58_compile id cmdSettings
  obtain ⟨⟨cmd, h1, h2⟩, _⟩ := h "src/a.cpp" "/p/build/a.o" none ⟨by decide, by unfold NoSpace; decide⟩
    ⟨by decide, by unfold NoSpace; decide⟩ (by unfold NoSpace; decide +kernel) (by unfold NoSpace; decide +kernel) _ _ _
    (Or.inl ⟨Or.inr ⟨rfl, "cpp", by simp, (extOf_iff _ _).2 (by decide +kernel)⟩, rfl, rfl, rfl⟩)
  refine ⟨c, cmd, hc, h1, h2.trans ?_⟩
  decide +kernel

/-- the hypotheses of `C58_link` hold; the command as words -/
example : ∃ c cmd, cxxOptions id cmdOpts = .ok c ∧ executableCommand "/p/app" ["a.o", "b.o"] c = .ok cmd ∧
    words cmd = ["c++", "-Wl,--start-group", "a.o", "b.o", "-Llib", "-lm", "-Wl,--end-group", "-o", "/p/app"] := by
  obtain ⟨c, hc, h⟩ := C58_link id cmdSettings
  obtain ⟨⟨cmd, h1, h2⟩, _⟩ := h "/p/app" ["a.o", "b.o"] ⟨by decide, by unfold NoSpace; decide⟩
    (by unfold Word NoSpace; decide +kernel) (by unfold NoSpace; decide +kernel) (by unfold NoSpace; decide +kernel)
    (by unfold NoSpace; decide +kernel)
  refine ⟨c, cmd, hc, h1, h2.trans ?_⟩
  decide +kernel

/-! ### C87 -/

/-- C87 is false of the code: paths are pasted into commands without quotes.  Whatever the options are, the command for
the source `my file.c` names the two files `my` and `file.c` and not the source. -/
theorem C87_violated (c : CxxOpts) : ∃ cmd pre post, objectCommand "my file.c" "my_file.o" c none = .ok cmd ∧
    words cmd = pre ++ ["-c", "my", "file.c", "-o", "my_file.o"] ++ post := by
  have h : objectCommand "my file.c" "my_file.o" c none =
      command ccObjRule { tgt := "my_file.o", src := some "my file.c", opts := c } :=
    ((C59_driver _ _ c none).2.2.2.1 (Or.inr ⟨rfl, "c", by simp, (extOf_iff _ _).2 (by decide +kernel)⟩)).1
  rw [h]
  obtain ⟨cmd, hc, hw⟩ := object_words (rule := ccObjRule) (c := c) (src := "my file.c") (tgt := "my_file.o")
    (Or.inr ⟨rfl, rfl, rfl⟩)
  refine ⟨cmd, words c.toolchain.cc, words c.incopt ++ words c.defopt ++ words c.ccFlags ++ words c.optimize, hc, ?_⟩
  have w1 : words "my file.c" = ["my", "file.c"] := by decide +kernel
  have w2 : words "my_file.o" = ["my_file.o"] := by decide +kernel
  rw [hw, w1, w2]
  simp

/-- C87, the part that holds: source and output are one argument each of the compiler command if their names are not
empty and contain no spaces, whatever the options are (`C58_compile` says it for the other parts, `C58_link` for the linker). -/
theorem C87_partial (c : CxxOpts) {src tgt : String} {type : Option String} (hs : Word src) (ht : Word tgt)
    (hk : CxxSource src type ∨ CSource src type) : ∃ cmd pre post, objectCommand src tgt c type = .ok cmd ∧
    words cmd = pre ++ ["-c", src, "-o", tgt] ++ post := by
  have key : ∀ rule drv flags, (rule = cxxObjRule ∧ drv = c.toolchain.cxx ∧ flags = c.cxxFlags ∨
      rule = ccObjRule ∧ drv = c.toolchain.cc ∧ flags = c.ccFlags) →
      objectCommand src tgt c type = command rule { tgt := tgt, src := some src, opts := c } →
      ∃ cmd pre post, objectCommand src tgt c type = .ok cmd ∧ words cmd = pre ++ ["-c", src, "-o", tgt] ++ post := by
    intro rule drv flags h e
    obtain ⟨cmd, hc, hw⟩ := object_words (src := src) (tgt := tgt) h
    refine ⟨cmd, words drv, words c.incopt ++ words c.defopt ++ words flags ++ words c.optimize, e.trans hc, ?_⟩
    rw [hw, words_word hs, words_word ht]
    simp
  obtain ⟨_, _, h3, h4, _⟩ := C59_driver src tgt c type
  rcases hk with h | h
  · exact key cxxObjRule _ _ (Or.inl ⟨rfl, rfl, rfl⟩) (h3 h).1
  · exact key ccObjRule _ _ (Or.inr ⟨rfl, rfl, rfl⟩) (h4 h).1

example : Word "src/a.cpp" ∧ Word "/p/build/a.o" ∧ CxxSource "src/a.cpp" none :=
  ⟨⟨by decide, by unfold NoSpace; decide⟩, ⟨by decide, by unfold NoSpace; decide⟩,
    Or.inr ⟨rfl, "cpp", by simp, (extOf_iff _ _).2 (by decide +kernel)⟩⟩

end Licant.Cxx
