/-
A command line from its text to the call of the target: licant/cli.py:60-73 `parse` in its first call, 131-158 `cliexecute`.  C129.
-/
import Verif.Misc.Args
import Verif.Misc.Jobs
import Verif.Cxx.Messages
import Verif.Cxx.Toolchains

set_option autoImplicit false

namespace Licant.Misc.Args
open Licant.Py.Path Licant.Misc

/-! ### Model -/

/-- `runtime["debug"]`, `runtime["quite"]`: licant/cli.py:141-143 -/
def Parsed.printFlags (r : Parsed) : Cxx.PrintFlags := { d := r.flags .debug, t := r.flags .trace, q := r.flags .quite }

/-- licant/cli.py:67-71 -/
def Parsed.toolFlags (r : Parsed) : Cxx.ToolFlags := { clang := r.flags .clang, gcc := r.flags .gcc }

/-- How a command line ends: in the parser, or in what it asks for. -/
inductive Outcome (σ : Type) where
  | parser (e : Exit)
  | ran (r : Except CliErr σ)

/-- licant/cli.py:131-158 `cliexecute(default)` with the command line `argv`, for the first call of `parse`: the arguments are parsed,
the print mode, the default toolchain and the number of threads are set and the rest is looked up and called.
`setMode` says how the program keeps the first two.  Not modelled: the lines printed by `colorwrap` and `--printruntime`. -/
def cliLine {σ ρ : Type} (P : Prog σ ρ) (setMode : σ → Cxx.PrintMode → Cxx.ToolFlags → σ) (setThreads : σ → Option Int → σ)
    (cpu : Option Nat) (default : Option String) (argv : List String) (s : σ) : Outcome σ :=
  match parseArgs (argv.map String.toList) with
  | .error e => .parser e
  | .ok r =>
    .ran (P.cliJobs setThreads cpu (String.ofList r.threads) default (r.free.map String.ofList)
      (setMode s r.printFlags.mode r.toolFlags))

/-! ### C129 -/

/-- the flags that the options ask for -/
def asked (effs : List Eff) (f : Flag) : Bool := decide (Eff.flag f ∈ effs)

/-- **C129**, on the level of the program.  With the options `effs`, in any of their spellings and in any places before and after the
free arguments, a command line does what C62 and C120 say of these free arguments and of the number of threads, in the print mode
and with the default toolchain that the options ask for. -/
theorem C129_line {σ ρ : Type} (P : Prog σ ρ) (setMode : σ → Cxx.PrintMode → Cxx.ToolFlags → σ) (setThreads : σ → Option Int → σ)
    (cpu : Option Nat) (default : Option String) (s : σ)
    {pre post : List (List Eff × List Str)} {free argv : List String} (hpre : ∀ x ∈ pre, Written x.1 x.2)
    (hpost : ∀ x ∈ post, Written x.1 x.2) (hfree : ∀ a ∈ free, Free a.toList)
    (hargv : argv.map String.toList = pre.flatMap (·.2) ++ free.map String.toList ++ post.flatMap (·.2)) :
    let effs := (pre ++ post).flatMap (·.1)
    ∃ t : String, Threads effs t.toList ∧
      cliLine P setMode setThreads cpu default argv s =
        .ran (P.cliJobs setThreads cpu t default free (setMode s
          { quite := asked effs .quite, debug := asked effs .debug || asked effs .trace }
          { clang := asked effs .clang, gcc := asked effs .gcc })) := by
  intro effs
  obtain ⟨r, h1, h2, h3, h4⟩ := C129_partial hpre hpost (free := free.map String.toList) (by
    intro a ha
    obtain ⟨b, hb, rfl⟩ := List.mem_map.1 ha
    exact hfree b hb)
  have hflag : ∀ f, r.flags f = asked effs f := by
    intro f
    rw [Bool.eq_iff_iff, h3 f]
    simp [asked, effs]
  refine ⟨String.ofList r.threads, by rw [String.toList_ofList]; exact h4, ?_⟩
  unfold cliLine
  rw [hargv, h1]
  have hof : (free.map String.toList).map String.ofList = free := by simp [Function.comp_def]
  simp only [h2, hof, Parsed.printFlags, Parsed.toolFlags, Cxx.PrintFlags.mode, hflag]

/-- **C129**, on the level of the program: with `-h` or `--help` the help text is printed, and with a long option that there is not a
usage message; no target is looked up and nothing is called. -/
theorem C129_ends {σ ρ : Type} (P : Prog σ ρ) (setMode : σ → Cxx.PrintMode → Cxx.ToolFlags → σ) (setThreads : σ → Option Int → σ)
    (cpu : Option Nat) (default : Option String) (s : σ)
    {pre post : List (List Eff × List Str)} {free argv : List String} {p : Str} (hpre : ∀ x ∈ pre, Written x.1 x.2)
    (hpost : ∀ x ∈ post, Written x.1 x.2) (hfree : ∀ a ∈ free, Free a.toList)
    (hargv : argv.map String.toList = pre.flatMap (·.2) ++ free.map String.toList ++ p :: post.flatMap (·.2)) :
    (p = "-h".toList ∨ Abbrev p "--help".toList → cliLine P setMode setThreads cpu default argv s = .parser .help) ∧
    (Unknown p → cliLine P setMode setThreads cpu default argv s = .parser .usage) := by
  have hf : ∀ a ∈ free.map String.toList, Free a := by
    intro a ha
    obtain ⟨b, hb, rfl⟩ := List.mem_map.1 ha
    exact hfree b hb
  refine ⟨fun hp => ?_, fun hp => ?_⟩
  · have h := C129_help hpre hpost hf (free' := []) (by simp) hp
    rw [List.append_nil] at h
    unfold cliLine
    rw [hargv, h]
  · unfold cliLine
    rw [hargv, C129_unknown hpre hpost hf hp]

/-- the hypotheses of `C129_ends`: `licant b --he` and `licant b --prefix=/usr` -/
example : (match cliLine jobsProg (fun s _ _ => s) RunSt.setThreads (some 8) (some "b") ["b", "--he"] jobsSt with
      | .parser e => some e
      | .ran _ => none) = some .help ∧
    (match cliLine jobsProg (fun s _ _ => s) RunSt.setThreads (some 8) (some "b") ["b", "--prefix=/usr"] jobsSt with
      | .parser e => some e
      | .ran _ => none) = some .usage := by
  have h1 := (C129_ends jobsProg (fun s _ _ => s) RunSt.setThreads (some 8) (some "b") jobsSt (pre := []) (post := []) (free := ["b"])
    (argv := ["b", "--he"]) (p := "--he".toList) (by simp) (by simp) (by simp [Free]) rfl).1 (Or.inr (by decide))
  have h2 := (C129_ends jobsProg (fun s _ _ => s) RunSt.setThreads (some 8) (some "b") jobsSt (pre := []) (post := []) (free := ["b"])
    (argv := ["b", "--prefix=/usr"]) (p := "--prefix=/usr".toList) (by simp) (by simp) (by simp [Free]) rfl).2
    ⟨by decide, by decide, by decide, by decide⟩
  rw [h1, h2]
  exact ⟨rfl, rfl⟩

/-- `licant -qj " +1_2" b --gcc_toolchain` and `licant c -q x` with the targets of `jobsProg`: the first builds with 12 workers, the
second is refused. -/
example : (match cliLine jobsProg (fun s _ _ => s) RunSt.setThreads (some 8) (some "b") ["-qj", " +1_2", "b", "--gcc"] jobsSt with
      | .parser _ => none
      | .ran r => startedBy r) = some [(2, 12)] ∧
    (match cliLine jobsProg (fun s _ _ => s) RunSt.setThreads (some 8) (some "b") ["c", "-q", "x"] jobsSt with
      | .parser e => some e
      | .ran _ => none) = some .usage := by
  refine ⟨?_, ?_⟩ <;> decide +kernel

end Licant.Misc.Args
