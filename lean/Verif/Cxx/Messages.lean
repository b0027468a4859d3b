/-
What is printed before a command is run: model of `do_execute` (licant/make.py:20-45) up to the start of the command, and of the
options `-q`, `-d` and `-t` (licant/cli.py:141-143).  C128.
-/
import Verif.Cxx.Convert

set_option autoImplicit false

namespace Licant.Cxx
open Licant.Py Licant.Py.Path

/-! ### Model -/

/-- the attribute of a target that holds its message: missing or `None`, a text, or an object of class `quite`
(licant/util.py:126-127) -/
inductive Msg where
  | none
  | text (s : String)
  | quite
deriving DecidableEq

/-- the runtime values that matter (licant/core.py:21-29: a value that is not set is `None`, which is falsy) -/
structure PrintMode where
  quite : Bool := false
  debug : Bool := false
deriving DecidableEq

/-- licant/cli.py:139-143: the options as parsed -/
structure PrintFlags where
  d : Bool := false
  t : Bool := false
  q : Bool := false
deriving DecidableEq

/-- licant/cli.py:141-143 -/
def PrintFlags.mode (f : PrintFlags) : PrintMode := { quite := f.q, debug := f.d || f.t }

/-- licant/make.py:31-44: the lines printed before the command is started, and the command; or an exception, before anything is
printed.  `prefix` is not used by licant. -/
def announce (m : PrintMode) (look : Str → Option Str) (rule : String) (msg : Msg) : Except Modules.Err (List String × String) := do
  let cmd ← formatted look rule
  if m.quite then return ([], cmd)
  else if m.debug then return ([cmd], cmd)
  else match msg with
    | .none => return ([cmd], cmd)
    | .quite => return ([], cmd)
    | .text s => do
      let line ← formatted look s
      return ([line], cmd)

/-- The messages that the functions of licant give to their targets, with the fields these have: licant/cxx_make.py:129, 161, 177,
195, 237, 250, 263, 299, licant/java_make.py:29, 47, licant/make.py:138 (`clr`), 242, 330, 362
(`makedir`, `touch` and `source` run no command: their messages are never printed). -/
def ownMessages : List (String × List String) :=
  [("OBJECT {tgt}", ["tgt", "src"]), ("MOC {tgt}", ["tgt", "src"]), ("UIC {tgt}", ["tgt", "src"]),
   ("DEPENDS {tgt}", ["tgt", "src"]), ("EXECUTABLE {tgt}", ["tgt", "srcs"]), ("DYNLIB {tgt}", ["tgt", "srcs"]),
   ("STATLIB {tgt}", ["tgt", "srcs"]), ("OBJCOPY {tgt}", ["tgt"]), ("JAVA {tgt}", ["tgt", "srcs"]),
   ("DEX {tgt}", ["tgt", "src"]), ("DELETE {tgt}", ["tgt"]), ("FTARGET {tgt}", ["tgt"]),
   ("COPY {src} {tgt}", ["tgt", "src"])]

/-! ### Specification -/

/-- The message of the target, if it has one, can be formatted. -/
def Formats (look : Str → Option Str) : Msg → Prop
  | .text s => ∃ line, formatted look s = .ok line
  | _ => True

/-- What is printed: nothing in quiet mode or for a quiet target, the message if the target has one, and otherwise, or in debug
mode, the command itself. -/
def Printed (m : PrintMode) (look : Str → Option Str) (msg : Msg) (cmd : String) (lines : List String) : Prop :=
  (m.quite = true → lines = []) ∧
  (m.quite = false → m.debug = true → lines = [cmd]) ∧
  (m.quite = false → m.debug = false → (msg = .none → lines = [cmd]) ∧ (msg = .quite → lines = []) ∧
    ∀ s, msg = .text s → ∃ line, formatted look s = .ok line ∧ lines = [line])

/-! ### C128 -/

/-- **C128**, as far as it holds: if the message of a target can be formatted, then in every mode exactly the same command is run,
or the same exception raised, and what is printed before it is as described. -/
theorem C128_partial (m : PrintMode) {look : Str → Option Str} (rule : String) {msg : Msg} (hm : Formats look msg) :
    match formatted look rule with
    | .error e => announce m look rule msg = .error e
    | .ok cmd => ∃ lines, announce m look rule msg = .ok (lines, cmd) ∧ Printed m look msg cmd lines := by
  obtain ⟨q, d⟩ := m
  unfold announce
  cases formatted look rule with
  | error e => rfl
  | ok cmd =>
    simp only [bind, Except.bind, pure, Except.pure]
    cases q with
    | true => exact ⟨[], by simp, by simp [Printed]⟩
    | false =>
      cases d with
      | true => exact ⟨[cmd], by simp, by simp [Printed]⟩
      | false =>
        cases msg with
        | none => exact ⟨[cmd], by simp, by simp [Printed]⟩
        | quite => exact ⟨[], by simp, by simp [Printed]⟩
        | text s =>
          obtain ⟨line, hl⟩ := hm
          exact ⟨[line], by simp [hl], by simp [Printed, hl]⟩

/-- C128: the messages that licant gives to its targets can always be formatted. -/
theorem C128_own {look : Str → Option Str} {msg : String} {fields : List String} (h : (msg, fields) ∈ ownMessages)
    (hl : ∀ f ∈ fields, ∃ v, look f.toList = some v) : Formats look (.text msg) := by
  have hv : ∀ f ∈ fields, ∃ v : String, look f.toList = some v.toList := by
    intro f hf
    obtain ⟨v, hv⟩ := hl f hf
    exact ⟨String.ofList v, by rw [hv, String.toList_ofList]⟩
  have one : ∀ w : String, (w.toList.all fun c => c ≠ '{' ∧ c ≠ '}') = true → "tgt" ∈ fields →
      msg = " ".intercalate [w, "{tgt}"] → Formats look (.text msg) := by
    intro w hw ht he
    obtain ⟨t, ht⟩ := hv _ ht
    refine ⟨_, formatted_toks msg [(w, w), ("{tgt}", t)] he ?_⟩
    simp only [List.forall_mem_cons]
    exact ⟨.lit hw, .field (k := "tgt".toList) rfl (by decide) rfl ht, by simp⟩
  simp only [ownMessages, List.mem_cons, List.not_mem_nil, or_false, Prod.mk.injEq] at h
  rcases h with ⟨rfl, rfl⟩ | ⟨rfl, rfl⟩ | ⟨rfl, rfl⟩ | ⟨rfl, rfl⟩ | ⟨rfl, rfl⟩ | ⟨rfl, rfl⟩ | ⟨rfl, rfl⟩ | ⟨rfl, rfl⟩ |
    ⟨rfl, rfl⟩ | ⟨rfl, rfl⟩ | ⟨rfl, rfl⟩ | ⟨rfl, rfl⟩ | ⟨rfl, rfl⟩
  · exact one "OBJECT" (by decide +kernel) (by simp) (by decide +kernel)
  · exact one "MOC" (by decide +kernel) (by simp) (by decide +kernel)
  · exact one "UIC" (by decide +kernel) (by simp) (by decide +kernel)
  · exact one "DEPENDS" (by decide +kernel) (by simp) (by decide +kernel)
  · exact one "EXECUTABLE" (by decide +kernel) (by simp) (by decide +kernel)
  · exact one "DYNLIB" (by decide +kernel) (by simp) (by decide +kernel)
  · exact one "STATLIB" (by decide +kernel) (by simp) (by decide +kernel)
  · exact one "OBJCOPY" (by decide +kernel) (by simp) (by decide +kernel)
  · exact one "JAVA" (by decide +kernel) (by simp) (by decide +kernel)
  · exact one "DEX" (by decide +kernel) (by simp) (by decide +kernel)
  · exact one "DELETE" (by decide +kernel) (by simp) (by decide +kernel)
  · exact one "FTARGET" (by decide +kernel) (by simp) (by decide +kernel)
  · obtain ⟨t, ht⟩ := hv "tgt" (by simp)
    obtain ⟨s, hs⟩ := hv "src" (by simp)
    refine ⟨_, formatted_toks _ [("COPY", "COPY"), ("{src}", s), ("{tgt}", t)]
      (show "COPY {src} {tgt}" = " ".intercalate ["COPY", "{src}", "{tgt}"] by decide +kernel) ?_⟩
    simp only [List.forall_mem_cons]
    exact ⟨.lit rfl, .field (k := "src".toList) rfl (by decide) rfl hs, .field (k := "tgt".toList) rfl (by decide) rfl ht,
      by simp⟩

/-- the fields of a target of `makefile("b", ["a"], "cp a {tgt}")` -/
def msgLook (k : Str) : Option Str := if k = "tgt".toList then some "/b".toList else none

/-- the assumptions can be met: the three ways of announcing a command -/
example : Formats msgLook (.text "MAKE {tgt}") ∧
    announce (PrintFlags.mode {}) msgLook "cp a {tgt}" (.text "MAKE {tgt}") = .ok (["MAKE /b"], "cp a /b") ∧
    announce (PrintFlags.mode { t := true }) msgLook "cp a {tgt}" (.text "MAKE {tgt}") = .ok (["cp a /b"], "cp a /b") ∧
    announce (PrintFlags.mode { q := true, d := true }) msgLook "cp a {tgt}" (.text "MAKE {tgt}") = .ok ([], "cp a /b") :=
  ⟨⟨"MAKE /b", by decide +kernel⟩, by decide +kernel, by decide +kernel, by decide +kernel⟩

/-- **C128** is violated: the command is run with `-q` and with `-d`, but not without them, if the message has a field that the
target has not got. -/
theorem C128_violated :
    announce (PrintFlags.mode { q := true }) msgLook "cp a {tgt}" (.text "MAKE {what}") = .ok ([], "cp a /b") ∧
    announce (PrintFlags.mode { d := true }) msgLook "cp a {tgt}" (.text "MAKE {what}") = .ok (["cp a /b"], "cp a /b") ∧
    announce (PrintFlags.mode {}) msgLook "cp a {tgt}" (.text "MAKE {what}") = .error .raised := by
  decide +kernel

/-- Which flags ask for which mode. -/
theorem C128_flags (f : PrintFlags) : f.mode.quite = f.q ∧ (f.mode.debug = true ↔ f.d = true ∨ f.t = true) := by
  simp [PrintFlags.mode]

end Licant.Cxx
