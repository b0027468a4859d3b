/-
The command line: model of the argument parser of licant/cli.py:15-53 (`parser.parse_args`), as the argparse of CPython 3.11.10 treats the
options declared there.  C129.
-/
import Mathlib.Data.List.Infix
import Verif.Py.Path

set_option autoImplicit false

namespace Licant.Misc.Args
open Licant.Py.Path

/-! ### Model -/

/-- the options of type `store_true` (licant/cli.py:24-37, 41-47, 50-53) -/
inductive Flag where
  | debug | trace | quite | printruntime | clang | gcc
  deriving DecidableEq

/-- what an option does: set a flag, take the number of threads (licant/cli.py:38-40), or print the help text and leave -/
inductive Act where
  | flag (f : Flag)
  | threads
  | help
  deriving DecidableEq

/-- `parser._option_string_actions`: licant/cli.py:15-53 -/
def table : List (Str × Act) :=
  [("-h".toList, .help), ("--help".toList, .help), ("-d".toList, .flag .debug), ("--debug".toList, .flag .debug),
   ("-t".toList, .flag .trace), ("--trace".toList, .flag .trace), ("-j".toList, .threads), ("--threads".toList, .threads),
   ("-q".toList, .flag .quite), ("--quite".toList, .flag .quite), ("--printruntime".toList, .flag .printruntime),
   ("--clang_toolchain".toList, .flag .clang), ("--gcc_toolchain".toList, .flag .gcc)]

def lookup (s : Str) : Option Act := (table.find? fun x => x.1 = s).map (·.2)

/-- the ways in which `parse_args` leaves the process: help text with status 0, or a message with status 2 (an exception in the
case of an empty explicit argument of a flag) -/
inductive Exit where
  | help
  | usage
  deriving DecidableEq

/-- `s.split("=", 1)` if there is an equality sign -/
def splitEq (s : Str) : Option (Str × Str) :=
  if '=' ∈ s then some (s.takeWhile (· ≠ '='), (s.dropWhile (· ≠ '=')).tail) else none

/-- `_negative_number_matcher`: `^-\d+$|^-\d*\.\d+$` -/
def negative (s : Str) : Bool :=
  match s with
  | '-' :: r => (r ≠ [] && r.all Char.isDigit) ||
    (let f := r.dropWhile Char.isDigit
     match f with
     | '.' :: f => f ≠ [] && f.all Char.isDigit
     | _ => false)
  | _ => false

/-- an argument that is an option: what it does (`none` for an unknown option), whether it is a short one with no equality sign after
it, and the explicit argument -/
structure Tuple where
  act : Option Act
  short : Bool
  explicit : Option Str
  deriving DecidableEq

def isShort (name : Str) : Bool := name[1]? ≠ some '-'

/-- `_get_option_tuples` -/
def tuples (s : Str) : List Tuple :=
  if s[1]? = some '-' then
    match splitEq s with
    | some (p, e) => (table.filter fun x => p.isPrefixOf x.1).map fun x => ⟨some x.2, isShort x.1, some e⟩
    | none => (table.filter fun x => s.isPrefixOf x.1).map fun x => ⟨some x.2, isShort x.1, none⟩
  else table.filterMap fun x =>
    if x.1 = s.take 2 then some ⟨some x.2, isShort x.1, some (s.drop 2)⟩
    else if s.isPrefixOf x.1 then some ⟨some x.2, isShort x.1, none⟩
    else none

/-- `_parse_optional`: `none` if the argument is no option -/
def parseOptional (s : Str) : Except Exit (Option Tuple) :=
  if s.head? ≠ some '-' then .ok none
  else match lookup s with
    | some a => .ok (some ⟨some a, isShort s, none⟩)
    | none =>
      if s.length = 1 then .ok none
      else match (splitEq s).bind fun x => (lookup x.1).map fun a => (⟨some a, false, some x.2⟩ : Tuple) with
        | some t => .ok (some t)
        | none =>
          match tuples s with
          | _ :: _ :: _ => .error .usage
          | [t] => .ok (some t)
          | [] => if negative s then .ok none else if ' ' ∈ s then .ok none else .ok (some ⟨none, isShort s, none⟩)

/-- `_parse_known_args`, first loop: the kind of each argument, `A`, `-` or `O` -/
inductive Kind where
  | arg
  | dashes
  | opt (t : Tuple)
  deriving DecidableEq

def Kind.of : Option Tuple → Kind
  | none => .arg
  | some t => .opt t

def classify : List Str → Except Exit (List (Str × Kind))
  | [] => .ok []
  | s :: l =>
    if s = "--".toList then .ok ((s, .dashes) :: l.map fun a => (a, .arg))
    else do
      let t ← parseOptional s
      let r ← classify l
      .ok ((s, Kind.of t) :: r)

/-- what the options ask for -/
inductive Eff where
  | flag (f : Flag)
  | threads (v : Str)
  | help
  /-- an unknown letter among short flags: it is put to the arguments not recognised -/
  | unknown
  deriving DecidableEq

/-- an option without argument -/
def Act.eff : Act → List Eff
  | .flag f => [.flag f]
  | .help => [.help]
  | .threads => []

/-- `consume_optional` with an explicit argument: short flags may be written together.  The Boolean says that the argument of `-j`
is still to come. -/
def expand (short : Bool) : Act → Str → Except Exit (List Eff × Bool)
  | a, [] => if a = .threads then .ok ([.threads []], false) else .error .usage
  | a, c :: e =>
    if a = .threads then .ok ([.threads (c :: e)], false)
    else if short then
      if c = '-' then .error .usage
      else match lookup ['-', c] with
      | none => .ok (a.eff ++ [.unknown], false)
      | some b =>
        if e = [] then .ok (a.eff ++ b.eff, b = .threads)
        else if e.head? = some '=' then
          if b = .threads then .ok (a.eff ++ [.threads e.tail], false) else .error .usage
        else
          match expand short b e with
          | .error x => .error x
          | .ok r => .ok (a.eff ++ r.1, r.2)
    else .error .usage

/-- The state of `_parse_known_args`: the effects, whether `-j` waits for its argument (with `true`: and help will be printed when it
has come), the free arguments, whether they have
begun and whether they have ended, and the arguments not recognised. -/
structure PState where
  effs : List Eff := []
  pend : Option Bool := none
  free : List Str := []
  ended : Bool := false
  extras : List Str := []

/-- `_parse_known_args`: one argument.  The positional `freeargs` (licant/cli.py:48, `nargs="*"`) takes the first run of arguments
that are no options. -/
def feed (st : PState) (x : Str × Kind) : Except Exit PState :=
  match st.pend with
  | some h =>
    match x.2 with
    | .arg => if h then .error .help else .ok { st with pend := none, effs := st.effs ++ [.threads x.1] }
    | _ => .error .usage
  | none =>
    match x.2 with
    | .opt t =>
      let st := { st with ended := st.ended || !st.free.isEmpty }
      match t.act, t.explicit with
      | none, _ => .ok { st with extras := st.extras ++ [x.1] }
      | some a, none =>
        if a = .help then .error .help else .ok { st with effs := st.effs ++ a.eff, pend := if a = .threads then some false else none }
      | some a, some e => do
        let r ← expand t.short a e
        if Eff.help ∈ r.1 then
          if r.2 then .ok { st with pend := some true } else .error .help
        else if Eff.unknown ∈ r.1 then .ok { st with effs := st.effs ++ r.1, extras := st.extras ++ [x.1] }
        else .ok { st with effs := st.effs ++ r.1, pend := if r.2 then some false else none }
    | _ =>
      if st.ended then .ok { st with extras := st.extras ++ [x.1] }
      else .ok { st with free := st.free ++ [x.1] }

/-- what `parse_args` returns: the flags that are set, the text for the number of threads, and the free arguments -/
structure Parsed where
  flags : Flag → Bool
  threads : Str
  free : List Str

/-- licant/cli.py:24-53: the defaults, and what the options make of them -/
def values (effs : List Eff) : (Flag → Bool) × Str :=
  effs.foldl (fun v e => match e with
    | .flag f => (fun g => if g = f then true else v.1 g, v.2)
    | .threads t => (v.1, t)
    | _ => v) (fun _ => false, "j".toList)

/-- `parser.parse_args(argv)`, called at licant/cli.py:64 -/
def parseArgs (argv : List Str) : Except Exit Parsed := do
  let l ← classify argv
  let st ← l.foldlM feed {}
  if st.pend.isSome then .error .usage
  else if st.extras ≠ [] then .error .usage
  else .ok ⟨(values st.effs).1, (values st.effs).2, st.free.erase "--".toList⟩

/-! ### Specification -/

/-- the names of the options -/
def shortName : Flag → Option Char
  | .debug => some 'd'
  | .trace => some 't'
  | .quite => some 'q'
  | _ => none

def longName : Flag → Str
  | .debug => "--debug".toList
  | .trace => "--trace".toList
  | .quite => "--quite".toList
  | .printruntime => "--printruntime".toList
  | .clang => "--clang_toolchain".toList
  | .gcc => "--gcc_toolchain".toList

def longNames : List Str :=
  ["--help".toList, "--threads".toList, "--debug".toList, "--trace".toList, "--quite".toList, "--printruntime".toList,
   "--clang_toolchain".toList, "--gcc_toolchain".toList]

/-- `p` is the long name `s` or begins like it and like no other long name. -/
def Abbrev (p s : Str) : Prop := p <+: s ∧ 2 < p.length ∧ ∀ s' ∈ longNames, p <+: s' → s' = s

/-- a negative number -/
def NegNumber (s : Str) : Prop := ∃ ds : Str, s = '-' :: ds ∧ ds ≠ [] ∧ ∀ d ∈ ds, d.isDigit = true

/-- no option: does not begin with a dash, is only a dash, or is a negative number -/
def Free (s : Str) : Prop := s.head? ≠ some '-' ∨ s = "-".toList ∨ NegNumber s

/-- `Written effs args`: the arguments `args` ask for `effs`.  A flag is written with its short name, or its long name, which may
be abbreviated; short flags may be written together, and `-j` with its number may follow.  The number is a separate argument or
stands after an equality sign, after `-j` also without. -/
inductive Written : List Eff → List Str → Prop
  | long {f : Flag} {p : Str} : Abbrev p (longName f) → Written [.flag f] [p]
  | short {fs : List Flag} {cs : Str} : fs.map shortName = cs.map some → fs ≠ [] → Written (fs.map .flag) ['-' :: cs]
  | threads {fs : List Flag} {cs v : Str} : fs.map shortName = cs.map some → Free v →
      Written (fs.map .flag ++ [.threads v]) ['-' :: cs ++ ['j'], v]
  | joined {fs : List Flag} {cs v : Str} : fs.map shortName = cs.map some → v ≠ [] → v.head? ≠ some '=' →
      Written (fs.map .flag ++ [.threads v]) ['-' :: cs ++ 'j' :: v]
  | equals {fs : List Flag} {cs v : Str} : fs.map shortName = cs.map some →
      Written (fs.map .flag ++ [.threads v]) ['-' :: cs ++ 'j' :: '=' :: v]
  | longThreads {p v : Str} : Abbrev p "--threads".toList → Free v → Written [.threads v] [p, v]
  | longEquals {p v : Str} : Abbrev p "--threads".toList → Written [.threads v] [p ++ '=' :: v]

/-- the text for the number of threads: that of the last option that gives one, and `j` if none does -/
def Threads (effs : List Eff) (t : Str) : Prop :=
  (∃ a b, effs = a ++ .threads t :: b ∧ ∀ v, Eff.threads v ∉ b) ∨ ((∀ v, Eff.threads v ∉ effs) ∧ t = "j".toList)

/-! ### Single arguments -/

instance (p s : Str) : Decidable (Abbrev p s) := by unfold Abbrev; infer_instance

theorem long_all : ∀ f : Flag, ∀ p ∈ (longName f).inits, Abbrev p (longName f) →
    p ≠ "--".toList ∧ parseOptional p = .ok (some ⟨some (.flag f), false, none⟩) := by
  intro f
  cases f <;> decide +kernel

theorem threads_all : ∀ p ∈ "--threads".toList.inits, Abbrev p "--threads".toList →
    p ≠ "--".toList ∧ parseOptional p = .ok (some ⟨some .threads, false, none⟩) ∧ '=' ∉ p ∧ p.head? = some '-' ∧ p[1]? = some '-' ∧
    (lookup p = some .threads ∧ isShort p = false ∨
      lookup p = none ∧ table.filter (fun x => p.isPrefixOf x.1) = [("--threads".toList, .threads)]) := by
  decide +kernel

theorem abbrev_inits {p s : Str} (h : Abbrev p s) : p ∈ s.inits := (List.mem_inits p s).2 h.1

theorem parse_long {f : Flag} {p : Str} (h : Abbrev p (longName f)) :
    p ≠ "--".toList ∧ parseOptional p = .ok (some ⟨some (.flag f), false, none⟩) :=
  long_all f p (abbrev_inits h) h

theorem table_no_equals : ∀ x ∈ table, '=' ∉ x.1 := by decide

theorem lookup_eq_none {s : Str} (h : ∀ x ∈ table, x.1 ≠ s) : lookup s = none := by
  unfold lookup
  rw [Option.map_eq_none_iff, List.find?_eq_none]
  intro x hx
  simpa using h x hx

theorem parse_free {s : Str} (h : Free s) : s ≠ "--".toList ∧ parseOptional s = .ok none := by
  rcases h with h | rfl | ⟨ds, rfl, hne, hd⟩
  · refine ⟨?_, if_pos h⟩
    rintro rfl
    exact h rfl
  · exact ⟨by decide, by decide +kernel⟩
  · obtain ⟨d, r, rfl⟩ : ∃ d r, ds = d :: r := by
      cases ds with
      | nil => exact absurd rfl hne
      | cons d r => exact ⟨_, _, rfl⟩
    have hdd := hd d (by simp)
    have htab : ∀ x ∈ table, ∃ c, x.1[1]? = some c ∧ c.isDigit = false := by decide
    have hsec : ∀ x ∈ table, ∀ t, x.1 ≠ '-' :: d :: t := by
      rintro x hx t he
      obtain ⟨c, h1, h2⟩ := htab x hx
      rw [he] at h1
      simp at h1
      rw [← h1, hdd] at h2
      cases h2
    have hnd : ∀ c : Char, c.isDigit = false → c ∉ d :: r := fun c hc hm => by rw [hd c hm] at hc; cases hc
    have heq : '=' ∉ '-' :: d :: r := by
      rw [List.mem_cons]
      rintro (h | h)
      · revert h; decide
      · exact hnd '=' (by decide) h
    refine ⟨fun he => ?_, ?_⟩
    · have he : '-' :: d :: r = ['-', '-'] := he
      have : d = '-' := by simp only [List.cons.injEq] at he; exact he.2.1
      subst this
      revert hdd
      decide
    unfold parseOptional
    rw [if_neg (by simp), lookup_eq_none fun x hx he => hsec x hx r he]
    simp only
    rw [if_neg (by simp)]
    have hsp : splitEq ('-' :: d :: r) = none := if_neg heq
    have hd1 : d ≠ '-' := by rintro rfl; revert hdd; decide
    have ht : tuples ('-' :: d :: r) = [] := by
      unfold tuples
      rw [if_neg (by simpa using hd1), List.filterMap_eq_nil_iff]
      intro x hx
      rw [if_neg fun he => hsec x hx [] (by simpa using he), if_neg]
      intro hp
      obtain ⟨t, ht⟩ := List.isPrefixOf_iff_prefix.1 hp
      exact hsec x hx (r ++ t) (by rw [← ht]; rfl)
    have hneg : negative ('-' :: d :: r) = true := by
      have : (d :: r).all Char.isDigit = true := List.all_eq_true.2 hd
      simp only [negative, this]
      simp
    simp only [hsp, Option.bind_none, ht, hneg, if_true]

theorem splitEq_append {p v : Str} (h : '=' ∉ p) : splitEq (p ++ '=' :: v) = some (p, v) := by
  unfold splitEq
  rw [if_pos (by simp)]
  have h1 : ∀ c ∈ p, (decide (c ≠ '=')) = true := by
    intro c hc
    simp only [ne_eq, decide_eq_true_eq]
    rintro rfl
    exact h hc
  congr 2
  · rw [List.takeWhile_append_of_pos h1]; simp
  · rw [List.dropWhile_append_of_pos h1]; simp

theorem parse_longEquals {p v : Str} (h : Abbrev p "--threads".toList) :
    p ++ '=' :: v ≠ "--".toList ∧ parseOptional (p ++ '=' :: v) = .ok (some ⟨some .threads, false, some v⟩) := by
  obtain ⟨h1, _, h3, h4, h5, h6⟩ := threads_all p (abbrev_inits h) h
  have h7 : (p ++ '=' :: v).head? = some '-' := by rw [List.head?_append, h4]; rfl
  have h8 : (p ++ '=' :: v)[1]? = some '-' := by
    rw [List.getElem?_append_left (by have := h.2.1; omega), h5]
  have h9 : lookup (p ++ '=' :: v) = none := lookup_eq_none fun x hx he => table_no_equals x hx (by rw [he]; simp)
  refine ⟨fun he => ?_, ?_⟩
  · have := congrArg List.length he
    have h2 := h.2.1
    simp at this
    omega
  unfold parseOptional
  rw [if_neg (by simpa using h7), h9]
  simp only
  rw [if_neg (by have := h.2.1; simp; omega), splitEq_append h3]
  rcases h6 with ⟨h6, h10⟩ | ⟨h6, h10⟩
  · simp only [Option.bind_some, h6, Option.map_some]
  · simp only [Option.bind_some, h6, Option.map_none]
    unfold tuples
    rw [if_pos h8, splitEq_append h3]
    simp only [h10]
    rfl

/-- the characters of short options -/
theorem short_char {f : Flag} {c : Char} (h : shortName f = some c) : lookup ['-', c] = some (.flag f) ∧ c ≠ '-' ∧ c ≠ '=' := by
  cases f <;> simp only [shortName, reduceCtorEq, Option.some.injEq] at h <;> subst h <;> decide

theorem lookup_three {c d : Char} {r : Str} (hc : c ≠ '-') : lookup ('-' :: c :: d :: r) = none := by
  refine lookup_eq_none fun x hx he => ?_
  have : ∀ x ∈ table, x.1[1]? = some '-' ∨ x.1.length = 2 := by decide
  rcases this x hx with h | h
  · rw [he] at h
    simp at h
    exact hc h
  · rw [he] at h
    simp at h

theorem tuples_short {c d : Char} {r : Str} {a : Act} (h : lookup ['-', c] = some a) (hc : c ≠ '-') :
    tuples ('-' :: c :: d :: r) = [⟨some a, true, some (d :: r)⟩] := by
  have hcs : c = 'h' ∨ c = 'd' ∨ c = 't' ∨ c = 'j' ∨ c = 'q' := by
    by_contra hcon
    simp only [not_or] at hcon
    have : lookup ['-', c] = none := by
      refine lookup_eq_none fun x hx he => ?_
      simp only [table, List.mem_cons, List.not_mem_nil, or_false] at hx
      rcases hx with rfl | rfl | rfl | rfl | rfl | rfl | rfl | rfl | rfl | rfl | rfl | rfl | rfl <;> simp at he <;>
        simp_all [eq_comm]
    rw [h] at this
    cases this
  rcases hcs with rfl | rfl | rfl | rfl | rfl
  all_goals
    have h' := h
    cases a with
    | help => first | rfl | (exfalso; revert h; decide)
    | threads => first | rfl | (exfalso; revert h; decide)
    | flag f => cases f <;> first | rfl | (exfalso; revert h; decide)

/-- short options written together -/
theorem parse_together {c d : Char} {r : Str} {a : Act} (h : lookup ['-', c] = some a) (hc : c ≠ '-') (hce : c ≠ '=') (hd : d ≠ '=') :
    '-' :: c :: d :: r ≠ "--".toList ∧
    parseOptional ('-' :: c :: d :: r) = .ok (some ⟨some a, true, some (d :: r)⟩) := by
  refine ⟨fun he => by simp at he, ?_⟩
  unfold parseOptional
  rw [if_neg (by simp), lookup_three hc]
  simp only
  rw [if_neg (by simp)]
  have hsp : ((splitEq ('-' :: c :: d :: r)).bind fun x => (lookup x.1).map fun a => (⟨some a, false, some x.2⟩ : Tuple)) =
      none := by
    unfold splitEq
    split
    · simp only [Option.bind_some, Option.map_eq_none_iff]
      have : ('-' :: c :: d :: r).takeWhile (fun x => decide (x ≠ '=')) =
          '-' :: c :: d :: r.takeWhile (fun x => decide (x ≠ '=')) := by
        simp [hce, hd]
      rw [this]
      exact lookup_three hc
    · rfl
  rw [hsp, tuples_short h hc]

theorem expand_flags {cs t : Str} : ∀ {fs : List Flag} {f : Flag} {l : List Eff} {b : Bool}, fs.map shortName = cs.map some →
    (∀ f, expand true (.flag f) t = .ok (.flag f :: l, b)) → t.head? ≠ some '=' →
    expand true (.flag f) (cs ++ t) = .ok (.flag f :: fs.map .flag ++ l, b) := by
  induction cs with
  | nil =>
    intro fs f l b hfs ht _
    have : fs = [] := by simpa using hfs
    subst this
    simpa using ht f
  | cons c cs ih =>
    intro fs f l b hfs ht hte
    cases fs with
    | nil => simp at hfs
    | cons g fs =>
      simp only [List.map_cons, List.cons.injEq] at hfs
      obtain ⟨hc, hcd, -⟩ := short_char hfs.1
      have hne : t ≠ [] := by
        rintro rfl
        have := ht f
        simp [expand] at this
      have := ih (f := g) hfs.2 ht hte
      have hhd : (cs ++ t).head? ≠ some '=' := by
        cases cs with
        | nil => exact hte
        | cons d cs =>
          have hm : some d ∈ (d :: cs).map some := by simp
          rw [← hfs.2] at hm
          obtain ⟨g, _, hg⟩ := List.mem_map.1 hm
          simpa using (short_char hg).2.2
      rw [List.cons_append, expand, if_neg (by simp), if_pos rfl, if_neg hcd, hc]
      simp only [this]
      rw [if_neg (by simp [hne]), if_neg hhd]
      simp [Act.eff]

theorem expand_short {cs : Str} {fs : List Flag} {f : Flag} (h : fs.map shortName = cs.map some) (hne : cs ≠ []) :
    expand true (.flag f) cs = .ok (.flag f :: fs.map .flag, false) := by
  obtain ⟨ci, c, rfl⟩ : ∃ ci c, cs = ci ++ [c] := ⟨_, _, (List.dropLast_append_getLast hne).symm⟩
  have hfe : fs ≠ [] := by rintro rfl; simp at h
  obtain ⟨fi, g, rfl⟩ : ∃ fi g, fs = fi ++ [g] := ⟨_, _, (List.dropLast_append_getLast hfe).symm⟩
  simp only [List.map_append, List.map_cons, List.map_nil] at h
  obtain ⟨h1, h2⟩ := List.append_inj' h rfl
  obtain ⟨hc, hcd, hce⟩ := short_char (List.cons.inj h2).1
  rw [expand_flags (l := [.flag g]) (b := false) h1]
  · simp
  · intro f'
    rw [expand, if_neg (by simp), if_pos rfl, if_neg hcd, hc]
    simp [Act.eff]
  · simpa using hce

theorem expand_j {f : Flag} : expand true (.flag f) ['j'] = .ok ([.flag f], true) := by
  cases f <;> rfl

theorem expand_jv {f : Flag} {v : Str} (hv : v ≠ []) (hve : v.head? ≠ some '=') : expand true (.flag f) ('j' :: v) = .ok ([.flag f, .threads v], false) := by
  have hj : lookup ['-', 'j'] = some .threads := by decide
  rw [expand, if_neg (by simp), if_pos rfl, if_neg (by decide), hj]
  cases v with
  | nil => exact absurd rfl hv
  | cons c v => simp only [List.head?_cons, ne_eq, Option.some.injEq] at hve; simp [expand, Act.eff, hve]

theorem expand_jeq {f : Flag} {v : Str} : expand true (.flag f) ('j' :: '=' :: v) = .ok ([.flag f, .threads v], false) := by
  have hj : lookup ['-', 'j'] = some .threads := by decide
  rw [expand, if_neg (by simp), if_pos rfl, if_neg (by decide), hj]
  simp [Act.eff]

/-! ### Lists of arguments -/

theorem classify_append {a : List Str} : ∀ {ka : List (Str × Kind)} {b : List Str} {kb : List (Str × Kind)}, "--".toList ∉ a →
    classify a = .ok ka → classify b = .ok kb → classify (a ++ b) = .ok (ka ++ kb) := by
  induction a with
  | nil => intro ka b kb _ ha hb; simp only [classify, Except.ok.injEq] at ha; subst ha; simpa using hb
  | cons s a ih =>
    intro ka b kb hn ha hb
    simp only [List.mem_cons, not_or] at hn
    rw [classify, if_neg (Ne.symm hn.1)] at ha
    rw [List.cons_append, classify, if_neg (Ne.symm hn.1)]
    cases hp : parseOptional s with
    | error e => simp [hp, bind, Except.bind] at ha
    | ok t =>
      cases hc : classify a with
      | error e => simp [hp, hc, bind, Except.bind] at ha
      | ok r =>
        simp only [hp, hc, bind, Except.bind, Except.ok.injEq] at ha
        subst ha
        simp [bind, Except.bind, ih hn.2 hc hb]

theorem classify_one {s : Str} {t : Option Tuple} (h : s ≠ "--".toList ∧ parseOptional s = .ok t) :
    classify [s] = .ok [(s, Kind.of t)] := by
  rw [classify, if_neg h.1, h.2]
  rfl

theorem classify_cons {s : Str} {t : Option Tuple} {l : List Str} {k : List (Str × Kind)}
    (h : s ≠ "--".toList ∧ parseOptional s = .ok t) (hl : classify l = .ok k) :
    classify (s :: l) = .ok ((s, Kind.of t) :: k) := by
  rw [classify, if_neg h.1, h.2, hl]
  rfl

@[simp] theorem Kind.of_none : Kind.of none = .arg := rfl

@[simp] theorem Kind.of_some (t : Tuple) : Kind.of (some t) = .opt t := rfl

theorem classify_free {l : List Str} (h : ∀ s ∈ l, Free s) : classify l = .ok (l.map fun s => (s, .arg)) := by
  induction l with
  | nil => rfl
  | cons s l ih =>
    rw [classify_cons (parse_free (h s (by simp))) (ih fun s hs => h s (by simp [hs]))]
    rfl

theorem free_ne {l : List Str} (h : ∀ s ∈ l, Free s) : "--".toList ∉ l := fun hm => (parse_free (h _ hm)).1 rfl

/-- the state after options -/
def PState.opts (st : PState) (effs : List Eff) : PState :=
  { st with effs := st.effs ++ effs, ended := st.ended || !st.free.isEmpty }

/-- One way to write options is read as what it asks for. -/
theorem written_feed {effs : List Eff} {args : List Str} (h : Written effs args) :
    "--".toList ∉ args ∧ args ≠ [] ∧ ∃ ks, classify args = .ok ks ∧
      ∀ st : PState, st.pend = none → ks.foldlM feed st = .ok (st.opts effs) := by
  have hflag : ∀ (st : PState) (s : Str) (f : Flag) (b : Bool), st.pend = none →
      feed st (s, .opt ⟨some (.flag f), b, none⟩) = .ok (st.opts [.flag f]) := by
    intro st s f b hp
    simp [feed, hp, PState.opts, Act.eff]
  have hexp : ∀ (st : PState) (s : Str) (a : Act) (b : Bool) (e : Str) (l : List Eff) (p : Bool), st.pend = none →
      expand b a e = .ok (l, p) → Eff.help ∉ l ∧ Eff.unknown ∉ l →
      feed st (s, .opt ⟨some a, b, some e⟩) = .ok { st.opts l with pend := if p then some false else none } := by
    intro st s a b e l p hp he hh
    simp [feed, hp, he, bind, Except.bind, hh.1, hh.2, PState.opts]
  have hth : ∀ (b : Bool) (e : Str), expand b .threads e = .ok ([.threads e], false) := by
    intro b e; cases e <;> rfl
  have hj : lookup ['-', 'j'] = some .threads := by decide
  cases h with
  | @long f p h =>
    have hl := parse_long h
    refine ⟨fun hm => Ne.symm hl.1 (List.mem_singleton.1 hm), by simp, _, classify_one hl, fun st hp => ?_⟩
    simp [List.foldlM_cons, hflag st p f false hp, bind, Except.bind, pure, Except.pure]
  | @short fs cs h hne =>
    cases cs with
    | nil => simp at h; exact absurd h hne
    | cons c cs =>
      cases fs with
      | nil => exact absurd rfl hne
      | cons f fs =>
        simp only [List.map_cons, List.cons.injEq] at h
        obtain ⟨hc, hcd, hce⟩ := short_char h.1
        cases cs with
        | nil =>
          have : fs = [] := by simpa using h.2
          subst this
          have hl : ['-', c] ≠ "--".toList ∧ parseOptional ['-', c] = .ok (some ⟨some (.flag f), true, none⟩) := by
            refine ⟨by simpa using hcd, ?_⟩
            unfold parseOptional
            rw [if_neg (by simp), hc]
            simp [isShort, hcd]
          refine ⟨fun hm => Ne.symm hl.1 (List.mem_singleton.1 hm), by simp, _, classify_one hl, fun st hp => ?_⟩
          simp [List.foldlM_cons, hflag st _ f true hp, bind, Except.bind, pure, Except.pure]
        | cons d cs =>
          have hd : d ≠ '=' := by
            have : some d ∈ (d :: cs).map some := by simp
            rw [← h.2] at this
            obtain ⟨g, _, hg⟩ := List.mem_map.1 this
            exact (short_char hg).2.2
          have hl := parse_together (r := cs) hc hcd hce hd
          refine ⟨fun hm => Ne.symm hl.1 (List.mem_singleton.1 hm), by simp, _, classify_one hl, fun st hp => ?_⟩
          simp only [List.foldlM_cons, List.foldlM_nil, Kind.of_some]
          rw [hexp st _ _ _ _ _ _ hp (expand_short h.2 (by simp)) (by simp)]
          simp [bind, Except.bind, pure, Except.pure, PState.opts, hp]
  | @threads fs cs v h hv =>
    have hfeedv : ∀ st : PState, feed { st with pend := some false } (v, .arg) = .ok { st with pend := none, effs := st.effs ++ [.threads v] } := by
      intro st; rfl
    have hfv := parse_free hv
    have hk : ∃ t : Tuple, ('-' :: cs ++ ['j'] ≠ "--".toList ∧ parseOptional ('-' :: cs ++ ['j']) = .ok (some t)) ∧
        ∀ st : PState, st.pend = none → feed st ('-' :: cs ++ ['j'], .opt t) = .ok { st.opts (fs.map .flag) with pend := some false } := by
      cases cs with
      | nil =>
        have : fs = [] := by simpa using h
        subst this
        refine ⟨⟨some .threads, true, none⟩, ⟨by decide, by decide +kernel⟩, fun st hp => ?_⟩
        simp [feed, hp, PState.opts, Act.eff]
      | cons c cs =>
        cases fs with
        | nil => simp at h
        | cons f fs =>
          simp only [List.map_cons, List.cons.injEq] at h
          obtain ⟨hc, hcd, hce⟩ := short_char h.1
          obtain ⟨d, r, hdr⟩ : ∃ d r, cs ++ ['j'] = d :: r := by
            cases cs with
            | nil => exact ⟨_, _, rfl⟩
            | cons d cs => exact ⟨_, _, rfl⟩
          have hd : d ≠ '=' := by
            cases cs with
            | nil => simp at hdr; rw [← hdr.1]; decide
            | cons d' cs =>
              simp at hdr
              obtain ⟨rfl, _⟩ := hdr
              have : some d' ∈ (d' :: cs).map some := by simp
              rw [← h.2] at this
              obtain ⟨g, _, hg⟩ := List.mem_map.1 this
              exact (short_char hg).2.2
          refine ⟨⟨some (.flag f), true, some (cs ++ ['j'])⟩, ?_, fun st hp => ?_⟩
          · rw [List.cons_append, List.cons_append, hdr]
            exact parse_together hc hcd hce hd
          · rw [hexp st _ _ _ _ _ _ hp (expand_flags (l := []) h.2 (fun f => expand_j) (by simp)) (by simp)]
            simp
    obtain ⟨t, ht, hfd⟩ := hk
    refine ⟨fun hm => by simp only [List.mem_cons, List.not_mem_nil, or_false] at hm; exact hm.elim (Ne.symm ht.1) (Ne.symm hfv.1), by simp, _, classify_cons ht (classify_one hfv), fun st hp => ?_⟩
    simp only [Kind.of, List.foldlM_cons, List.foldlM_nil, hfd st hp, bind, Except.bind, hfeedv, pure, Except.pure]
    simp [PState.opts, hp]
  | @joined fs cs v h hv hve =>
    have hk : ∃ t : Tuple, ('-' :: cs ++ 'j' :: v ≠ "--".toList ∧ parseOptional ('-' :: cs ++ 'j' :: v) = .ok (some t)) ∧
        ∀ st : PState, st.pend = none → feed st ('-' :: cs ++ 'j' :: v, .opt t) =
          .ok (st.opts (fs.map .flag ++ [.threads v])) := by
      cases cs with
      | nil =>
        have : fs = [] := by simpa using h
        subst this
        obtain ⟨d, r, rfl⟩ : ∃ d r, v = d :: r := by
          cases v with
          | nil => exact absurd rfl hv
          | cons d r => exact ⟨_, _, rfl⟩
        refine ⟨⟨some .threads, true, some (d :: r)⟩, ?_, fun st hp => ?_⟩
        · exact parse_together hj (by decide) (by decide) (by simpa using hve)
        · rw [hexp st _ _ _ _ _ _ hp (hth _ _) (by simp)]
          simp [PState.opts, hp]
      | cons c cs =>
        cases fs with
        | nil => simp at h
        | cons f fs =>
          simp only [List.map_cons, List.cons.injEq] at h
          obtain ⟨hc, hcd, hce⟩ := short_char h.1
          obtain ⟨d, r, hdr⟩ : ∃ d r, cs ++ 'j' :: v = d :: r := by
            cases cs with
            | nil => exact ⟨_, _, rfl⟩
            | cons d cs => exact ⟨_, _, rfl⟩
          have hd : d ≠ '=' := by
            cases cs with
            | nil => simp at hdr; rw [← hdr.1]; decide
            | cons d' cs =>
              simp at hdr
              obtain ⟨rfl, _⟩ := hdr
              have : some d' ∈ (d' :: cs).map some := by simp
              rw [← h.2] at this
              obtain ⟨g, _, hg⟩ := List.mem_map.1 this
              exact (short_char hg).2.2
          refine ⟨⟨some (.flag f), true, some (cs ++ 'j' :: v)⟩, ?_, fun st hp => ?_⟩
          · rw [List.cons_append, List.cons_append, hdr]
            exact parse_together hc hcd hce hd
          · rw [hexp st _ _ _ _ _ _ hp (expand_flags (l := [.threads v]) h.2 (fun f => expand_jv hv hve) (by simp)) (by simp)]
            simp [PState.opts, hp]
    obtain ⟨t, ht, hfd⟩ := hk
    refine ⟨fun hm => Ne.symm ht.1 (List.mem_singleton.1 hm), by simp, _, classify_one ht, fun st hp => ?_⟩
    simp only [Kind.of, List.foldlM_cons, List.foldlM_nil, hfd st hp, bind, Except.bind, pure, Except.pure]
  | @equals fs cs v h =>
    have hk : ∃ t : Tuple, ('-' :: cs ++ 'j' :: '=' :: v ≠ "--".toList ∧ parseOptional ('-' :: cs ++ 'j' :: '=' :: v) = .ok (some t)) ∧
        ∀ st : PState, st.pend = none → feed st ('-' :: cs ++ 'j' :: '=' :: v, .opt t) =
          .ok (st.opts (fs.map .flag ++ [.threads v])) := by
      cases cs with
      | nil =>
        have : fs = [] := by simpa using h
        subst this
        refine ⟨⟨some .threads, false, some v⟩, ⟨by simp, ?_⟩, fun st hp => ?_⟩
        · have h9 : lookup ("-j=".toList ++ v) = none := lookup_eq_none fun x hx he => table_no_equals x hx (by rw [he]; simp)
          have hsp : splitEq ("-j=".toList ++ v) = some ("-j".toList, v) := splitEq_append (p := "-j".toList) (by decide)
          have hj' : lookup "-j".toList = some .threads := hj
          change parseOptional ("-j=".toList ++ v) = _
          unfold parseOptional
          rw [if_neg (by simp), h9]
          simp only
          rw [if_neg (by simp), hsp]
          simp only [Option.bind_some, hj', Option.map_some]
        · rw [hexp st _ _ _ _ _ _ hp (hth _ _) (by simp)]
          simp [PState.opts, hp]
      | cons c cs =>
        cases fs with
        | nil => simp at h
        | cons f fs =>
          simp only [List.map_cons, List.cons.injEq] at h
          obtain ⟨hc, hcd, hce⟩ := short_char h.1
          obtain ⟨d, r, hdr⟩ : ∃ d r, cs ++ 'j' :: '=' :: v = d :: r := by
            cases cs with
            | nil => exact ⟨_, _, rfl⟩
            | cons d cs => exact ⟨_, _, rfl⟩
          have hd : d ≠ '=' := by
            cases cs with
            | nil => simp at hdr; rw [← hdr.1]; decide
            | cons d' cs =>
              simp at hdr
              obtain ⟨rfl, _⟩ := hdr
              have : some d' ∈ (d' :: cs).map some := by simp
              rw [← h.2] at this
              obtain ⟨g, _, hg⟩ := List.mem_map.1 this
              exact (short_char hg).2.2
          refine ⟨⟨some (.flag f), true, some (cs ++ 'j' :: '=' :: v)⟩, ?_, fun st hp => ?_⟩
          · rw [List.cons_append, List.cons_append, hdr]
            exact parse_together hc hcd hce hd
          · rw [hexp st _ _ _ _ _ _ hp (expand_flags (l := [.threads v]) h.2 (fun f => expand_jeq) (by simp)) (by simp)]
            simp [PState.opts, hp]
    obtain ⟨t, ht, hfd⟩ := hk
    refine ⟨fun hm => Ne.symm ht.1 (List.mem_singleton.1 hm), by simp, _, classify_one ht, fun st hp => ?_⟩
    simp only [Kind.of, List.foldlM_cons, List.foldlM_nil, hfd st hp, bind, Except.bind, pure, Except.pure]
  | @longThreads p v h hv =>
    obtain ⟨h1, h2, _⟩ := threads_all p (abbrev_inits h) h
    have hfv := parse_free hv
    refine ⟨by simpa using ⟨Ne.symm h1, Ne.symm hfv.1⟩, by simp, _, classify_cons ⟨h1, h2⟩ (classify_one hfv), fun st hp => ?_⟩
    simp [List.foldlM_cons, feed, hp, bind, Except.bind, pure, Except.pure, PState.opts, Act.eff]
  | @longEquals p v h =>
    have hl := parse_longEquals (v := v) h
    refine ⟨fun hm => Ne.symm hl.1 (List.mem_singleton.1 hm), by simp, _, classify_one hl, fun st hp => ?_⟩
    simp only [List.foldlM_cons, List.foldlM_nil, Kind.of_some]
    rw [hexp st _ _ _ _ _ _ hp (hth _ _) (by simp)]
    simp [bind, Except.bind, pure, Except.pure, PState.opts, hp]

theorem opts_opts (st : PState) (a b : List Eff) : (st.opts a).opts b = st.opts (a ++ b) := by
  simp [PState.opts]

/-- options one after another -/
theorem items_feed {l : List (List Eff × List Str)} (h : ∀ x ∈ l, Written x.1 x.2) :
    "--".toList ∉ l.flatMap (·.2) ∧ ∃ ks, classify (l.flatMap (·.2)) = .ok ks ∧
      ∀ st : PState, st.pend = none → (l = [] → st.ended = (st.ended || !st.free.isEmpty)) →
        ks.foldlM feed st = .ok (st.opts (l.flatMap (·.1))) := by
  induction l with
  | nil =>
    refine ⟨by simp, [], rfl, fun st hp he => ?_⟩
    simp only [List.foldlM_nil, pure, Except.pure, PState.opts, List.flatMap_nil, List.append_nil, ← he rfl]
  | cons x l ih =>
    obtain ⟨hn, hne, ks, hk, hf⟩ := written_feed (h x (by simp))
    obtain ⟨hn', ks', hk', hf'⟩ := ih fun y hy => h y (by simp [hy])
    refine ⟨by simpa using ⟨by simpa using hn, by simpa using hn'⟩, ks ++ ks', ?_, fun st hp he => ?_⟩
    · rw [List.flatMap_cons]
      exact classify_append hn hk hk'
    · rw [List.foldlM_append, hf st hp]
      simp only [bind, Except.bind]
      rw [hf' _ (by simpa [PState.opts] using hp) (by intro _; simp [PState.opts]), opts_opts]
      rfl

/-- free arguments one after another -/
theorem free_feed {l : List Str} : ∀ {st : PState}, st.pend = none →
    (l.map fun s => (s, Kind.arg)).foldlM feed st =
      .ok (if st.ended then { st with extras := st.extras ++ l } else { st with free := st.free ++ l }) := by
  induction l with
  | nil => intro st hp; simp [pure, Except.pure]
  | cons s l ih =>
    intro st hp
    simp only [List.map_cons, List.foldlM_cons]
    cases he : st.ended with
    | true =>
      simp only [feed, hp, he, bind, Except.bind, if_true]
      rw [ih (by simp)]
      simp
    | false =>
      simp only [feed, hp, he, bind, Except.bind, Bool.false_eq_true, if_false]
      rw [ih (by simp)]
      simp

theorem values_flag (effs : List Eff) (f : Flag) : (values effs).1 f = true ↔ Eff.flag f ∈ effs := by
  unfold values
  induction effs using List.reverseRecOn with
  | nil => simp
  | append_singleton l e ih =>
    rw [List.foldl_append]
    cases e with
    | flag g =>
      simp only [List.foldl_cons, List.foldl_nil, List.mem_append, List.mem_singleton, Eff.flag.injEq]
      by_cases hg : f = g
      · simp [hg]
      · rw [if_neg hg]
        simp only [hg, or_false]
        exact ih
    | threads v => simpa using ih
    | help => simpa using ih
    | unknown => simpa using ih

theorem values_threads (effs : List Eff) : Threads effs (values effs).2 := by
  unfold values
  induction effs using List.reverseRecOn with
  | nil => exact Or.inr ⟨by simp, rfl⟩
  | append_singleton l e ih =>
    rw [List.foldl_append]
    have key : (∀ v, e ≠ Eff.threads v) → ∀ t, Threads l t → Threads (l ++ [e]) t := by
      rintro he t (⟨a, b, rfl, hb⟩ | ⟨h1, h2⟩)
      · exact Or.inl ⟨a, b ++ [e], by simp, fun v hv => by
          rcases List.mem_append.1 hv with hv | hv
          · exact hb v hv
          · exact he v (List.mem_singleton.1 hv).symm⟩
      · exact Or.inr ⟨fun v hv => by
          rcases List.mem_append.1 hv with hv | hv
          · exact h1 v hv
          · exact he v (List.mem_singleton.1 hv).symm, h2⟩
    cases e with
    | flag g => exact key (by simp) _ ih
    | threads v => exact Or.inl ⟨l, [], by simp, by simp⟩
    | help => exact key (by simp) _ ih
    | unknown => exact key (by simp) _ ih

theorem parse_result {argv : List Str} {ks : List (Str × Kind)} {st : PState} (hk : classify argv = .ok ks)
    (hf : ks.foldlM feed {} = .ok st) (hp : st.pend = none) (hx : st.extras = []) :
    ∃ r, parseArgs argv = .ok r ∧ r.free = st.free.erase "--".toList ∧ (∀ f, r.flags f = true ↔ Eff.flag f ∈ st.effs) ∧
      Threads st.effs r.threads := by
  refine ⟨⟨(values st.effs).1, (values st.effs).2, st.free.erase "--".toList⟩, ?_, rfl, values_flag _, values_threads _⟩
  unfold parseArgs
  simp only [hk, bind, Except.bind]
  rw [hf]
  simp [hp, hx]

/-! ### C129 -/

/-- **C129, partial.** Options may be written before and after the free arguments, each in any of its spellings: the flags that are
set are those that were asked for, the number of threads is that of the last option that gives one, and the free arguments are
passed on as they are, in their order.  The free arguments must follow each other: `C129_violated`. -/
theorem C129_partial {pre post : List (List Eff × List Str)} {free : List Str} (hpre : ∀ x ∈ pre, Written x.1 x.2)
    (hpost : ∀ x ∈ post, Written x.1 x.2) (hfree : ∀ s ∈ free, Free s) :
    ∃ r, parseArgs (pre.flatMap (·.2) ++ free ++ post.flatMap (·.2)) = .ok r ∧ r.free = free ∧
      (∀ f, r.flags f = true ↔ Eff.flag f ∈ (pre ++ post).flatMap (·.1)) ∧ Threads ((pre ++ post).flatMap (·.1)) r.threads := by
  obtain ⟨hn, ks, hk, hf⟩ := items_feed hpre
  obtain ⟨hn', ks', hk', hf'⟩ := items_feed hpost
  have hff := free_ne hfree
  have hc : classify (pre.flatMap (·.2) ++ free ++ post.flatMap (·.2)) = .ok (ks ++ free.map (fun s => (s, .arg)) ++ ks') :=
    classify_append (by simp only [List.mem_append, not_or]; exact ⟨hn, hff⟩)
      (classify_append hn hk (classify_free hfree)) hk'
  by_cases hp0 : post = []
  · subst hp0
    simp only [List.flatMap_nil, classify, Except.ok.injEq] at hk'
    subst hk'
    obtain ⟨r, h1, h2, h3, h4⟩ := parse_result (st := { effs := pre.flatMap (·.1), free := free }) hc (by
      rw [List.append_nil, List.foldlM_append, hf {} rfl (by simp)]
      simp only [bind, Except.bind]
      rw [free_feed rfl]
      simp [PState.opts]) rfl rfl
    exact ⟨r, h1, by rw [h2, List.erase_of_not_mem hff], by simpa using h3, by simpa using h4⟩
  · obtain ⟨r, h1, h2, h3, h4⟩ := parse_result
      (st := { effs := pre.flatMap (·.1) ++ post.flatMap (·.1), free := free, ended := !free.isEmpty }) hc (by
      rw [List.foldlM_append, List.foldlM_append, hf {} rfl (by simp)]
      simp only [bind, Except.bind]
      rw [free_feed rfl]
      simp only
      rw [hf' _ (by simp [PState.opts]) (fun h => absurd h hp0)]
      simp [PState.opts]) rfl rfl
    exact ⟨r, h1, by rw [h2, List.erase_of_not_mem hff], by simpa using h3, by simpa using h4⟩

/-- **C129.** Behind `--` every argument is passed on as it is, even if it looks like an option. -/
theorem C129_dashes {pre : List (List Eff × List Str)} {free args : List Str} (hpre : ∀ x ∈ pre, Written x.1 x.2)
    (hfree : ∀ s ∈ free, Free s) :
    ∃ r, parseArgs (pre.flatMap (·.2) ++ free ++ "--".toList :: args) = .ok r ∧ r.free = free ++ args ∧
      (∀ f, r.flags f = true ↔ Eff.flag f ∈ pre.flatMap (·.1)) ∧ Threads (pre.flatMap (·.1)) r.threads := by
  obtain ⟨hn, ks, hk, hf⟩ := items_feed hpre
  have hff := free_ne hfree
  have hc : classify (pre.flatMap (·.2) ++ free ++ "--".toList :: args) =
      .ok (ks ++ free.map (fun s => (s, .arg)) ++ ("--".toList, .dashes) :: args.map (fun s => (s, .arg))) :=
    classify_append (by simp only [List.mem_append, not_or]; exact ⟨hn, hff⟩)
      (classify_append hn hk (classify_free hfree)) (by rw [classify, if_pos rfl])
  obtain ⟨r, h1, h2, h3, h4⟩ := parse_result (st := { effs := pre.flatMap (·.1), free := free ++ "--".toList :: args }) hc (by
    rw [List.foldlM_append, List.foldlM_append, hf {} rfl (by simp)]
    simp only [bind, Except.bind]
    rw [free_feed rfl]
    simp only [PState.opts, List.foldlM_cons, bind, Except.bind]
    simp only [feed]
    simp only [List.isEmpty_nil, Bool.not_true, Bool.or_false, Bool.false_eq_true, if_false]
    rw [free_feed rfl]
    simp) rfl rfl
  exact ⟨r, h1, by rw [h2, List.erase_append_right _ hff, List.erase_cons_head], h3, h4⟩

/-- **C129 is violated.** If options stand between free arguments, `licant` prints a usage message and does nothing. -/
theorem C129_violated {pre mid post : List (List Eff × List Str)} {free free' : List Str} (hpre : ∀ x ∈ pre, Written x.1 x.2)
    (hmid : ∀ x ∈ mid, Written x.1 x.2) (hpost : ∀ x ∈ post, Written x.1 x.2) (hfree : ∀ s ∈ free, Free s)
    (hfree' : ∀ s ∈ free', Free s) (hm : mid ≠ []) (h1 : free ≠ []) (h2 : free' ≠ []) :
    parseArgs (pre.flatMap (·.2) ++ free ++ (mid.flatMap (·.2) ++ (free' ++ post.flatMap (·.2)))) = .error .usage := by
  obtain ⟨hn, ks, hk, hf⟩ := items_feed hpre
  obtain ⟨hn', ks', hk', hf'⟩ := items_feed hmid
  obtain ⟨hn'', ks'', hk'', hf''⟩ := items_feed hpost
  have hc : classify (pre.flatMap (·.2) ++ free ++ (mid.flatMap (·.2) ++ (free' ++ post.flatMap (·.2)))) =
      .ok (ks ++ free.map (fun s => (s, .arg)) ++ (ks' ++ (free'.map (fun s => (s, .arg)) ++ ks''))) :=
    classify_append (by simp only [List.mem_append, not_or]; exact ⟨hn, free_ne hfree⟩)
      (classify_append hn hk (classify_free hfree)) (classify_append hn' hk' (classify_append (free_ne hfree') (classify_free hfree') hk''))
  have he : free.isEmpty = false := by simpa using h1
  have hrun : ∃ st, (ks ++ free.map (fun s => (s, Kind.arg)) ++ (ks' ++ (free'.map (fun s => (s, Kind.arg)) ++ ks''))).foldlM feed {} =
      .ok st ∧ st.pend = none ∧ st.extras = free' := by
    rw [List.foldlM_append, List.foldlM_append, hf {} rfl (by simp)]
    simp only [bind, Except.bind]
    rw [free_feed rfl]
    simp only
    rw [List.foldlM_append, hf' _ (by simp [PState.opts]) (fun h => absurd h hm)]
    simp only [bind, Except.bind]
    rw [List.foldlM_append, free_feed (by simp [PState.opts])]
    simp only [bind, Except.bind]
    rw [hf'' _ (by simp [PState.opts, he]) (by simp [PState.opts, he])]
    exact ⟨_, rfl, by simp [PState.opts, he], by simp [PState.opts, he]⟩
  obtain ⟨st, hst, hp, hx⟩ := hrun
  unfold parseArgs
  simp only [hc, bind, Except.bind]
  rw [hst]
  simp [hp, hx, h2]

/-- The hypotheses are met: `licant -qd --tr -tj4 make -j 8 --gcc`. -/
example : ∃ r, parseArgs ["-qd".toList, "--tr".toList, "-tj4".toList, "make".toList, "-j".toList, "8".toList, "--gcc".toList] = .ok r ∧
    r.free = ["make".toList] ∧ r.flags .quite = true ∧ r.flags .trace = true ∧ r.flags .gcc = true ∧ r.flags .clang = false := by
  have w1 : Written [.flag .quite, .flag .debug] ["-qd".toList] := .short (fs := [.quite, .debug]) (cs := "qd".toList) (by decide) (by simp)
  have w2 : Written [.flag .trace] ["--tr".toList] := .long (by decide +kernel)
  have w3 : Written [.flag .trace, .threads "4".toList] ["-tj4".toList] :=
    .joined (fs := [.trace]) (cs := "t".toList) (v := "4".toList) (by decide) (by decide) (by decide)
  have w4 : Written [.threads "8".toList] ["-j".toList, "8".toList] :=
    .threads (fs := []) (cs := []) (v := "8".toList) rfl (Or.inl (by decide))
  have w5 : Written [.flag .gcc] ["--gcc".toList] := .long (by decide +kernel)
  obtain ⟨r, h1, h2, h3, h4⟩ := C129_partial
    (pre := [([.flag .quite, .flag .debug], ["-qd".toList]), ([.flag .trace], ["--tr".toList]),
      ([.flag .trace, .threads "4".toList], ["-tj4".toList])])
    (post := [([.threads "8".toList], ["-j".toList, "8".toList]), ([.flag .gcc], ["--gcc".toList])]) (free := ["make".toList])
    (by simp only [List.mem_cons, List.not_mem_nil, or_false]; rintro x (rfl | rfl | rfl) <;> assumption)
    (by simp only [List.mem_cons, List.not_mem_nil, or_false]; rintro x (rfl | rfl) <;> assumption)
    (by simp [Free])
  refine ⟨r, h1, h2, (h3 _).2 (by simp), (h3 _).2 (by simp), (h3 _).2 (by simp), ?_⟩
  by_contra h
  have := (h3 .clang).1 (by simpa using h)
  simp at this

/-- Negative numbers and a single dash are free arguments: `licant move -5 - -q`. -/
example : ∃ r, parseArgs ["move".toList, "-5".toList, "-".toList, "-q".toList] = .ok r ∧
    r.free = ["move".toList, "-5".toList, "-".toList] ∧ r.flags .quite = true := by
  obtain ⟨r, h1, h2, h3, -⟩ := C129_partial (pre := []) (post := [([.flag .quite], ["-q".toList])])
    (free := ["move".toList, "-5".toList, "-".toList]) (by simp)
    (by simpa using Written.short (fs := [.quite]) (cs := "q".toList) (by decide) (by simp)) (by
      simp only [List.mem_cons, List.not_mem_nil, or_false]
      rintro s (rfl | rfl | rfl)
      · exact Or.inl (by decide)
      · exact Or.inr (Or.inr ⟨['5'], rfl, by simp, by decide⟩)
      · exact Or.inr (Or.inl rfl))
  exact ⟨r, h1, h2, (h3 _).2 (by simp)⟩

theorem help_all : ∀ p ∈ "--help".toList.inits, Abbrev p "--help".toList →
    p ≠ "--".toList ∧ parseOptional p = .ok (some ⟨some .help, false, none⟩) := by
  decide +kernel

theorem foldlM_error {l : List (Str × Kind)} {st : PState} {x : Str × Kind} {e : Exit} (h : feed st x = .error e) :
    (x :: l).foldlM feed st = .error e := by
  rw [List.foldlM_cons, h]
  rfl

/-- **C129.** `-h` and `--help`, also abbreviated, print the help text wherever they stand among options and free arguments, even
where free arguments could not stand. -/
theorem C129_help {pre post : List (List Eff × List Str)} {free free' : List Str} {p : Str} (hpre : ∀ x ∈ pre, Written x.1 x.2)
    (hpost : ∀ x ∈ post, Written x.1 x.2) (hfree : ∀ s ∈ free, Free s) (hfree' : ∀ s ∈ free', Free s)
    (hp : p = "-h".toList ∨ Abbrev p "--help".toList) :
    parseArgs (pre.flatMap (·.2) ++ free ++ p :: (post.flatMap (·.2) ++ free')) = .error .help := by
  obtain ⟨hn, ks, hk, hf⟩ := items_feed hpre
  obtain ⟨hn', ks', hk', -⟩ := items_feed hpost
  obtain ⟨b, hb⟩ : ∃ b, p ≠ "--".toList ∧ parseOptional p = .ok (some ⟨some .help, b, none⟩) := by
    rcases hp with rfl | hp
    · exact ⟨true, by decide, by decide +kernel⟩
    · exact ⟨false, help_all p (abbrev_inits hp) hp⟩
  have hc := classify_append (a := pre.flatMap (·.2) ++ free)
    (by simp only [List.mem_append, not_or]; exact ⟨hn, free_ne hfree⟩) (classify_append hn hk (classify_free hfree))
    (classify_cons hb (classify_append hn' hk' (classify_free hfree')))
  have hh : ∀ st : PState, st.pend = none → feed st (p, .opt ⟨some .help, b, none⟩) = .error .help := by
    intro st hs
    simp [feed, hs]
  unfold parseArgs
  simp only [hc, bind, Except.bind]
  rw [List.foldlM_append, List.foldlM_append, hf {} rfl (by simp)]
  simp only [bind, Except.bind]
  rw [free_feed rfl]
  simp only [Kind.of_some]
  rw [foldlM_error (hh _ (by simp [PState.opts]))]

/-- the hypotheses of `C129_help`: `licant -q make --he -j4 all` -/
example : parseArgs ["-q".toList, "make".toList, "--he".toList, "-j4".toList, "all".toList] = .error .help :=
  C129_help (pre := [([.flag .quite], ["-q".toList])]) (post := [([.threads "4".toList], ["-j4".toList])]) (free := ["make".toList])
    (free' := ["all".toList]) (by simpa using Written.short (fs := [.quite]) (cs := "q".toList) (by decide) (by simp))
    (by simpa using Written.joined (fs := []) (cs := []) (v := "4".toList) rfl (by simp) (by simp)) (by simp [Free]) (by simp [Free])
    (Or.inr (by decide))

/-- an argument like a long option that there is not -/
structure Unknown (s : Str) : Prop where
  dashes : "--".toList <+: s
  more : s ≠ "--".toList
  noSpace : ' ' ∉ s
  other : ∀ n ∈ longNames, ¬ s.takeWhile (· ≠ '=') <+: n

theorem parse_unknown {s : Str} (h : Unknown s) : ∃ b, parseOptional s = .ok (some ⟨none, b, none⟩) := by
  obtain ⟨r, rfl⟩ := h.dashes
  have hp : ("--".toList ++ r).takeWhile (fun c => decide (c ≠ '=')) = "--".toList ++ r.takeWhile (fun c => decide (c ≠ '=')) := by
    rw [List.takeWhile_append_of_pos (by decide)]
  have htab : ∀ x ∈ table, x.1 ∈ longNames ∨ x.1[1]? ≠ some '-' := by decide
  have hno : ∀ x ∈ table, ∀ q, "--".toList <+: q → ("--".toList ++ r).takeWhile (fun c => decide (c ≠ '=')) <+: q → ¬ q <+: x.1 := by
    intro x hx q hq hpq hqx
    rcases htab x hx with hl | hl
    · exact h.other _ hl (hpq.trans hqx)
    · obtain ⟨t, ht⟩ := hq.trans hqx
      apply hl
      rw [← ht]
      rfl
  have hself : ("--".toList ++ r).takeWhile (fun c => decide (c ≠ '=')) <+: "--".toList ++ r := List.takeWhile_prefix _
  have hdd : "--".toList <+: ("--".toList ++ r).takeWhile (fun c => decide (c ≠ '=')) := by rw [hp]; exact List.prefix_append _ _
  have hl1 : lookup ("--".toList ++ r) = none :=
    lookup_eq_none fun x hx he => hno x hx _ (List.prefix_append _ _) hself (by rw [he])
  have hl2 : lookup (("--".toList ++ r).takeWhile (fun c => decide (c ≠ '='))) = none :=
    lookup_eq_none fun x hx he => hno x hx _ hdd (List.prefix_refl _) (by rw [he])
  have hf : ∀ q, "--".toList <+: q → ("--".toList ++ r).takeWhile (fun c => decide (c ≠ '=')) <+: q →
      table.filter (fun x => q.isPrefixOf x.1) = [] := by
    intro q hq hpq
    rw [List.filter_eq_nil_iff]
    intro x hx hb
    exact hno x hx q hq hpq (List.isPrefixOf_iff_prefix.1 hb)
  have ht : tuples ("--".toList ++ r) = [] := by
    unfold tuples
    rw [if_pos (show ("--".toList ++ r)[1]? = some '-' from rfl)]
    unfold splitEq
    by_cases he : '=' ∈ "--".toList ++ r
    · rw [if_pos he]
      simp only
      rw [hf _ hdd (List.prefix_refl _)]
      rfl
    · rw [if_neg he]
      simp only
      rw [hf _ (List.prefix_append _ _) hself]
      rfl
  have hneg : negative ("--".toList ++ r) = false := by
    change negative ('-' :: '-' :: r) = false
    simp [negative]
  refine ⟨isShort ("--".toList ++ r), ?_⟩
  unfold parseOptional
  rw [if_neg (by simp), hl1]
  simp only
  rw [if_neg (by simp)]
  have hsp : ((splitEq ("--".toList ++ r)).bind fun x => (lookup x.1).map fun a => (⟨some a, false, some x.2⟩ : Tuple)) = none := by
    unfold splitEq
    split
    · simp only [Option.bind_some, Option.map_eq_none_iff]
      exact hl2
    · rfl
  rw [hsp]
  simp only [ht, hneg, Bool.false_eq_true, if_false]
  rw [if_neg h.noSpace]

/-- **C129.** A long option that there is not ends the program with a usage message, whatever options and free arguments come with it:
a misspelt option is never ignored. -/
theorem C129_unknown {pre post : List (List Eff × List Str)} {free : List Str} {s : Str} (hpre : ∀ x ∈ pre, Written x.1 x.2)
    (hpost : ∀ x ∈ post, Written x.1 x.2) (hfree : ∀ s ∈ free, Free s) (hs : Unknown s) :
    parseArgs (pre.flatMap (·.2) ++ free ++ s :: post.flatMap (·.2)) = .error .usage := by
  obtain ⟨hn, ks, hk, hf⟩ := items_feed hpre
  obtain ⟨hn', ks', hk', hf'⟩ := items_feed hpost
  obtain ⟨b, hb⟩ := parse_unknown hs
  have hc := classify_append (a := pre.flatMap (·.2) ++ free)
    (by simp only [List.mem_append, not_or]; exact ⟨hn, free_ne hfree⟩) (classify_append hn hk (classify_free hfree))
    (classify_cons ⟨hs.more, hb⟩ hk')
  have hh : ∀ st : PState, st.pend = none → feed st (s, .opt ⟨none, b, none⟩) =
      .ok { st with ended := st.ended || !st.free.isEmpty, extras := st.extras ++ [s] } := by
    intro st hp
    simp [feed, hp]
  unfold parseArgs
  simp only [hc, bind, Except.bind]
  rw [List.foldlM_append, List.foldlM_append, hf {} rfl (by simp)]
  simp only [bind, Except.bind]
  rw [free_feed rfl]
  simp only [Kind.of_some, List.foldlM_cons]
  rw [hh _ (by simp [PState.opts])]
  simp only [bind, Except.bind]
  rw [hf' _ (by simp [PState.opts]) (by intro _; simp [PState.opts])]
  simp [PState.opts]

/-- the hypotheses of `C129_unknown`: `licant -q install --prefix=/usr -j4` -/
example : parseArgs ["-q".toList, "install".toList, "--prefix=/usr".toList, "-j4".toList] = .error .usage :=
  C129_unknown (pre := [([.flag .quite], ["-q".toList])]) (post := [([.threads "4".toList], ["-j4".toList])]) (free := ["install".toList])
    (by simpa using Written.short (fs := [.quite]) (cs := "q".toList) (by decide) (by simp))
    (by simpa using Written.joined (fs := []) (cs := []) (v := "4".toList) rfl (by simp) (by simp)) (by simp [Free])
    ⟨by decide, by decide, by decide, by decide⟩

/-- what can be compared -/
def Parsed.view (r : Parsed) : List Flag × Str × List Str :=
  ([Flag.debug, .trace, .quite, .printruntime, .clang, .gcc].filter r.flags, r.threads, r.free)

/-- The same line, other lines, and the hypotheses of `C129_violated`: `licant make -q b`. -/
example : [["-qd", "--tr", "-tj4", "make", "-j", "8", "--gcc"], ["install", "--prefix=/usr"], ["install", "--", "--prefix=/usr"],
      ["--t"], ["-qh"], ["x", "-j"]].map (fun l => (parseArgs (l.map String.toList)).map Parsed.view) =
    [.ok ([.debug, .trace, .quite, .gcc], "8".toList, ["make".toList]), .error .usage,
     .ok ([], "j".toList, ["install".toList, "--prefix=/usr".toList]), .error .usage, .error .help, .error .usage] ∧
    parseArgs ["make".toList, "-q".toList, "b".toList] = .error .usage := by
  refine ⟨by decide +kernel, ?_⟩
  have w1 : Written [.flag .quite] ["-q".toList] := .short (fs := [.quite]) (cs := "q".toList) (by decide) (by simp)
  exact C129_violated (pre := []) (mid := [([.flag .quite], ["-q".toList])]) (post := []) (free := ["make".toList])
    (free' := ["b".toList]) (by simp) (by simpa using w1) (by simp) (by simp [Free]) (by simp [Free]) (by simp) (by simp) (by simp)

end Licant.Misc.Args
