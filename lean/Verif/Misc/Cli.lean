/-
Model of licant/cli.py and the properties C62, C63, C64, C91.
-/
import Verif.Core.Registry
import Verif.Solver.Props

set_option autoImplicit false

namespace Licant.Misc
open Licant.Py Licant.Core

/-! ### model -/

/-- A program that uses the command line: states `σ`, results of actions `ρ`.
* `core`, `setCore`: the core given to `cliexecute`
* `routine`: which objects are instances of `Routine` (cli.py:103)
* `actions`: the attribute `__actions__` of an object (core.py:175, 196-197, 261-262)
* `eval`, `hasattr`, `act`: as in `Core.invoke` (core.py:264-297) -/
structure Prog (σ ρ : Type) where
  canon : String → String
  core : σ → Reg
  setCore : σ → Reg → σ
  routine : Nat → Bool
  actions : Nat → List String
  eval : σ → Except Err σ
  hasattr : Nat → String → Bool
  act : Call → σ → Except Err (σ × ρ)

variable {σ ρ : Type}

/-- core.py:264-297 `invoke(funcname, args, critical=True)` -/
def Prog.invoke (P : Prog σ ρ) (k : Call) (s : σ) : Except Err (σ × ρ) := do
  let s ← P.eval s
  if P.hasattr k.obj k.action then P.act k s else .error .wrongAction

/-- cli.py:76-83 `execute_with_default_action`: the list is passed as the parameter `args`.
Every target has the attribute `default_action` (core.py:193). -/
def Prog.invokeDefault (P : Prog σ ρ) (o : Nat) (args : List String) (s : σ) : Except Err (σ × ρ) :=
  P.invoke ⟨o, ((P.core s).obj o).defaultAction, args⟩ s

/-- The parameters of the call `invoke(act, *extra, critical=True)` (cli.py:115, 121), where the signature is
`invoke(self, funcname, args=[], critical=False, kwargs={})` (core.py:264), and of the call `func(*args)` made with them
(core.py:291, 294):
* without extra arguments, `args` is the empty list;
* a single extra argument is taken as `args`; `*args` of a text are its characters;
* the second extra argument is taken as `critical`, which is also given by name: `TypeError`. -/
def passed : List String → Except Err (List String)
  | [] => .ok []
  | [a] => .ok (a.toList.map fun ch => String.ofList [ch])
  | _ :: _ :: _ => .error .type

/-- cli.py:86-128 `__cliexecute` -/
def Prog.dispatch (P : Prog σ ρ) (default : Option String) (args : List String) (s : σ) : Except Err (σ × ρ) :=
  match args with
  | [] =>
    match default with
    | none => .error .exit
    | some d => do
      let o ← Core.get P.canon (P.core s) d
      P.invokeDefault o [] s
  | fnd :: rest =>
    let h := Core.has P.canon (P.core s) fnd
    let s := P.setCore s h.1
    if h.2 then do
      let o ← Core.get P.canon (P.core s) fnd
      match rest with
      | [] => P.invokeDefault o [] s
      | act :: extra =>
        if P.routine o then P.invokeDefault o (act :: extra) s
        else if act ∉ P.actions o then .error .exit
        else do
          let a ← passed extra
          P.invoke ⟨o, act, a⟩ s
    else
      match default with
      | none => .error .exit
      | some d => do
        let o ← Core.get P.canon (P.core s) d
        if fnd ∈ P.actions o then do
          let a ← passed rest
          P.invoke ⟨o, fnd, a⟩ s
        else .error .exit

/-- How a Python process ends: the return value of its main script is nothing, `exit(-1)` gives the status 255, an
exception that nobody catches gives 1. -/
def status {α : Type} : Except Err α → Nat
  | .ok _ => 0
  | .error .exit => 255
  | .error _ => 1

/-- cli.py:131-158 `cliexecute` at the end of a script, up to the setting of runtime flags (not modelled: the options,
the interruption by the user): the result of `__cliexecute` is not used. -/
def Prog.cliexecute (P : Prog σ ρ) (default : Option String) (args : List String) (s : σ) : Except Err σ :=
  match P.dispatch default args s with
  | .error e => .error e
  | .ok (s, _) => .ok s

/-- cli.py:60-73 `parse`: the global `opts` is `None` until the first call; later calls return what was parsed first.
`free` gives the free arguments of an argument list (argparse; not modelled further). -/
def parse (free : List String → List String) (opts : Option (List String)) (argv : List String) :
    Option (List String) × List String :=
  match opts with
  | none => (some (free argv), free argv)
  | some args => (some args, args)

/-- one call `cliexecute(default, argv=argv)` (cli.py:131-158) in a program; the first component of the state is the
global `opts` of cli.py -/
def Prog.cliCall (P : Prog σ ρ) (free : List String → List String) (default : Option String) (argv : List String)
    (s : Option (List String) × σ) : Except Err (Option (List String) × σ) :=
  let p := parse free s.1 argv
  match P.cliexecute default p.2 s.2 with
  | .error e => .error e
  | .ok s => .ok (p.1, s)

/-! ### specification -/

/-- The call that a command line asks for. -/
inductive Asks (P : Prog σ ρ) (c : Reg) (default : Option String) : List String → Call → Prop
  /-- nothing: the default action of the default target -/
  | nothing {d : String} {o : Nat} : default = some d → Resolves P.canon c d o →
      Asks P c default [] ⟨o, (c.obj o).defaultAction, []⟩
  /-- a target: its default action -/
  | target {t : String} {o : Nat} : Resolves P.canon c t o → Asks P c default [t] ⟨o, (c.obj o).defaultAction, []⟩
  /-- a routine with arguments: its default action with them -/
  | routine {t : String} {o : Nat} {args : List String} : Resolves P.canon c t o → P.routine o = true →
      Asks P c default (t :: args) ⟨o, (c.obj o).defaultAction, args⟩
  /-- a target and one of its declared actions -/
  | action {t a : String} {o : Nat} {args : List String} : Resolves P.canon c t o → P.routine o = false →
      a ∈ P.actions o → Asks P c default (t :: a :: args) ⟨o, a, args⟩
  /-- a declared action of the default target, unless it is the name of a target -/
  | defaultAction {d a : String} {o : Nat} {args : List String} : default = some d → (∀ o', ¬ Resolves P.canon c a o') →
      Resolves P.canon c d o → a ∈ P.actions o → Asks P c default (a :: args) ⟨o, a, args⟩

/-- `c'` is `c`, perhaps with an additional alias: all names have the same meaning -/
def SameMeaning (canon : String → String) (c c' : Reg) : Prop :=
  c'.obj = c.obj ∧ ∀ n o, Resolves canon c' n o ↔ Resolves canon c n o

/-! ### proofs -/

theorem has_iff {canon : String → String} {c : Reg} {n : String} :
    (Core.has canon c n).2 = true ↔ ∃ o, Resolves canon c n o := by
  unfold Core.has Resolves Dict.has
  cases h : c.targets.get n with
  | some o => simp
  | none => cases h' : c.targets.get (canon n) <;> simp

theorem has_same {canon : String → String} (hc : Idempotent canon) (c : Reg) (n : String) :
    SameMeaning canon c (Core.has canon c n).1 := by
  refine ⟨?_, fun m o => by rw [← get_ok, has_get hc, get_ok]⟩
  unfold Core.has
  split
  · rfl
  · split <;> rfl

theorem same_refl (canon : String → String) (c : Reg) : SameMeaning canon c c := ⟨rfl, fun _ _ => Iff.rfl⟩

/-- the setter and the getter of the core belong together -/
def Prog.Lawful (P : Prog σ ρ) : Prop := ∀ s c, P.core (P.setCore s c) = c

/-- what is executed for a call asked for: the arguments are those that `passed` gives, except for routines -/
theorem dispatch_asks {P : Prog σ ρ} (hc : Idempotent P.canon) (hl : P.Lawful) {default : Option String}
    {args : List String} {s : σ} {k : Call} (h : Asks P (P.core s) default args k) :
    ∃ s', SameMeaning P.canon (P.core s) (P.core s') ∧ (s' = s ∨ ∃ n, s' = P.setCore s (Core.has P.canon (P.core s) n).1) ∧
      (P.dispatch default args s = P.invoke k s' ∨
        P.dispatch default args s = (passed k.args).bind fun a => P.invoke ⟨k.obj, k.action, a⟩ s') ∧
      (k.args = [] → P.dispatch default args s = P.invoke k s') ∧
      (∀ t, args = t :: k.args → P.routine k.obj = true → Resolves P.canon (P.core s) t k.obj →
        P.dispatch default args s = P.invoke k s') := by
  have hnew : ∀ {t : String} {o : Nat}, Resolves P.canon (P.core s) t o →
      (Core.has P.canon (P.core s) t).2 = true ∧
      Core.get P.canon (P.core (P.setCore s (Core.has P.canon (P.core s) t).1)) t = .ok o ∧
      SameMeaning P.canon (P.core s) (P.core (P.setCore s (Core.has P.canon (P.core s) t).1)) := by
    intro t o hr
    refine ⟨has_iff.2 ⟨o, hr⟩, ?_, ?_⟩
    · rw [hl, has_get hc]; exact get_ok.2 hr
    · rw [hl]; exact has_same hc _ _
  cases h with
  | nothing hd hr =>
    rename_i d o
    refine ⟨s, same_refl _ _, Or.inl rfl, ?_⟩
    have : P.dispatch default [] s = P.invoke ⟨o, ((P.core s).obj o).defaultAction, []⟩ s := by
      subst hd
      simp only [Prog.dispatch, get_ok.2 hr, bind, Except.bind, Prog.invokeDefault]
    exact ⟨Or.inl this, fun _ => this, fun _ _ _ _ => this⟩
  | target hr =>
    rename_i t o
    obtain ⟨h1, h2, h3⟩ := hnew hr
    refine ⟨_, h3, Or.inr ⟨_, rfl⟩, ?_⟩
    have : P.dispatch default [t] s = P.invoke ⟨o, ((P.core s).obj o).defaultAction, []⟩
        (P.setCore s (Core.has P.canon (P.core s) t).1) := by
      simp only [Prog.dispatch, h1, if_true, h2, bind, Except.bind, Prog.invokeDefault, h3.1]
    exact ⟨Or.inl this, fun _ => this, fun _ _ _ _ => this⟩
  | routine hr hrt =>
    rename_i t o rest
    obtain ⟨h1, h2, h3⟩ := hnew hr
    refine ⟨_, h3, Or.inr ⟨_, rfl⟩, ?_⟩
    have : P.dispatch default (t :: rest) s = P.invoke ⟨o, ((P.core s).obj o).defaultAction, rest⟩
        (P.setCore s (Core.has P.canon (P.core s) t).1) := by
      cases rest with
      | nil => simp only [Prog.dispatch, h1, if_true, h2, bind, Except.bind, Prog.invokeDefault, h3.1]
      | cons a rest =>
        simp only [Prog.dispatch, h1, if_true, h2, bind, Except.bind, Prog.invokeDefault, h3.1, hrt]
    exact ⟨Or.inl this, fun _ => this, fun _ _ _ _ => this⟩
  | action hr hrt ha =>
    rename_i t a o rest
    obtain ⟨h1, h2, h3⟩ := hnew hr
    refine ⟨_, h3, Or.inr ⟨_, rfl⟩, ?_⟩
    have : P.dispatch default (t :: a :: rest) s = (passed rest).bind fun x => P.invoke ⟨o, a, x⟩
        (P.setCore s (Core.has P.canon (P.core s) t).1) := by
      simp only [Prog.dispatch, h1, if_true, h2, bind, Except.bind, hrt, Bool.false_eq_true, if_false, ha, not_true_eq_false]
    refine ⟨Or.inr this, fun he => ?_, fun t' _ hrt' _ => ?_⟩
    · rw [this]
      dsimp only at he
      subst he
      rfl
    · rw [show P.routine o = true from hrt'] at hrt; cases hrt
  | defaultAction hd hno hr ha =>
    rename_i d a o rest
    subst hd
    have h1 : (Core.has P.canon (P.core s) a).2 = false := by
      rw [← Bool.not_eq_true, has_iff]
      rintro ⟨o', h'⟩
      exact hno o' h'
    have h3 : SameMeaning P.canon (P.core s) (P.core (P.setCore s (Core.has P.canon (P.core s) a).1)) := by
      rw [hl]; exact has_same hc _ _
    have h2 : Core.get P.canon (P.core (P.setCore s (Core.has P.canon (P.core s) a).1)) d = .ok o := by
      rw [hl, has_get hc]; exact get_ok.2 hr
    refine ⟨_, h3, Or.inr ⟨_, rfl⟩, ?_⟩
    have : P.dispatch (some d) (a :: rest) s = (passed rest).bind fun x => P.invoke ⟨o, a, x⟩
        (P.setCore s (Core.has P.canon (P.core s) a).1) := by
      simp only [Prog.dispatch, h1, Bool.false_eq_true, if_false, h2, bind, Except.bind, ha, if_true]
    refine ⟨Or.inr this, fun he => ?_, fun t' he _ hr' => ?_⟩
    · rw [this]
      dsimp only at he
      subst he
      rfl
    · simp only [List.cons.injEq] at he
      obtain ⟨rfl, _⟩ := he
      exact absurd hr' (hno _)

/-- C62: if a command line asks for a call without arguments, or for a routine with arguments, exactly that call is made;
if it asks for nothing that exists, the program ends with the status of an error and nothing has been evaluated or
called (the result does not depend on what evaluation and actions would do). -/
theorem C62_dispatch (P : Prog σ ρ) (hc : Idempotent P.canon) (hl : P.Lawful) (default : Option String)
    (args : List String) (s : σ) :
    (∀ k, Asks P (P.core s) default args k →
      k.args = [] ∨ (∃ t, args = t :: k.args ∧ P.routine k.obj = true ∧ Resolves P.canon (P.core s) t k.obj) →
      ∃ s', SameMeaning P.canon (P.core s) (P.core s') ∧ (s' = s ∨ ∃ n, s' = P.setCore s (Core.has P.canon (P.core s) n).1) ∧
        P.dispatch default args s = P.invoke k s') ∧
    ((∀ k, ¬ Asks P (P.core s) default args k) →
      ∀ eval act, ({ P with eval := eval, act := act } : Prog σ ρ).dispatch default args s = .error .exit) := by
  refine ⟨fun k hk ha => ?_, fun hno eval act => ?_⟩
  · obtain ⟨s', h1, h2, _, h4, h5⟩ := dispatch_asks hc hl hk
    refine ⟨s', h1, h2, ?_⟩
    rcases ha with ha | ⟨t, h6, h7, h8⟩
    · exact h4 ha
    · exact h5 t h6 h7 h8
  · cases args with
    | nil =>
      cases default with
      | none => rfl
      | some d =>
        have hg : Core.get P.canon (P.core s) d = .error .exit :=
          get_err.1 fun o ho => hno _ (.nothing rfl ho)
        simp only [Prog.dispatch, hg, bind, Except.bind]
    | cons fnd rest =>
      have hnot : ∀ o, ¬ Resolves P.canon (P.core s) fnd o ∨ ∃ a r, rest = a :: r := by
        intro o
        cases rest with
        | nil => exact Or.inl fun ho => hno _ (.target ho)
        | cons a r => exact Or.inr ⟨a, r, rfl⟩
      by_cases hr : ∃ o, Resolves P.canon (P.core s) fnd o
      · obtain ⟨o, ho⟩ := hr
        rcases hnot o with h | ⟨a, r, rfl⟩
        · exact absurd ho h
        · have h1 : (Core.has P.canon (P.core s) fnd).2 = true := has_iff.2 ⟨o, ho⟩
          have h2 : Core.get P.canon (P.core (P.setCore s (Core.has P.canon (P.core s) fnd).1)) fnd = .ok o := by
            rw [hl, has_get hc]; exact get_ok.2 ho
          have h3 : P.routine o = false := by
            cases hrt : P.routine o with
            | false => rfl
            | true => exact absurd (Asks.routine ho hrt) (hno _)
          have h4 : a ∉ P.actions o := fun ha => hno _ (.action ho h3 ha)
          simp only [Prog.dispatch, h1, if_true, h2, bind, Except.bind, h3, Bool.false_eq_true, if_false, h4,
            not_false_eq_true]
      · have h1 : (Core.has P.canon (P.core s) fnd).2 = false := by
          rw [← Bool.not_eq_true, has_iff]; exact hr
        simp only [Prog.dispatch, h1, Bool.false_eq_true, if_false]
        cases default with
        | none => rfl
        | some d =>
          by_cases hd : ∃ o, Resolves P.canon (P.core s) d o
          · obtain ⟨o, ho⟩ := hd
            have h2 : Core.get P.canon (P.core (P.setCore s (Core.has P.canon (P.core s) fnd).1)) d = .ok o := by
              rw [hl, has_get hc]; exact get_ok.2 ho
            have h4 : fnd ∉ P.actions o := fun ha => hno _ (.defaultAction rfl (fun o' h' => hr ⟨o', h'⟩) ho ha)
            simp only [h2, bind, Except.bind, h4, if_false]
          · have h2 : Core.get P.canon (P.core (P.setCore s (Core.has P.canon (P.core s) fnd).1)) d = .error .exit := by
              rw [hl, has_get hc]
              exact get_err.1 fun o ho => hd ⟨o, ho⟩
            simp only [h2, bind, Except.bind]

/-- C63 is false of the code: for every target that is no routine and every declared action, a single extra argument
arrives as its characters, and with more extra arguments the program ends with a `TypeError` without having called
anything. -/
theorem C63_violated (P : Prog σ ρ) (hc : Idempotent P.canon) (hl : P.Lawful) (default : Option String) (s : σ)
    {t a : String} {o : Nat} (hr : Resolves P.canon (P.core s) t o) (hrt : P.routine o = false) (ha : a ∈ P.actions o) :
    (∀ x, ∃ s', SameMeaning P.canon (P.core s) (P.core s') ∧
      P.dispatch default [t, a, x] s = P.invoke ⟨o, a, x.toList.map fun ch => String.ofList [ch]⟩ s') ∧
    ∀ x y rest eval act, ({ P with eval := eval, act := act } : Prog σ ρ).dispatch default (t :: a :: x :: y :: rest) s =
      .error .type := by
  have h1 : (Core.has P.canon (P.core s) t).2 = true := has_iff.2 ⟨o, hr⟩
  have h2 : Core.get P.canon (P.core (P.setCore s (Core.has P.canon (P.core s) t).1)) t = .ok o := by
    rw [hl, has_get hc]; exact get_ok.2 hr
  constructor
  · intro x
    refine ⟨P.setCore s (Core.has P.canon (P.core s) t).1, by rw [hl]; exact has_same hc _ _, ?_⟩
    simp only [Prog.dispatch, h1, if_true, h2, bind, Except.bind, hrt, Bool.false_eq_true, if_false, ha,
      not_true_eq_false, passed]
  · intro x y rest eval act
    simp only [Prog.dispatch, h1, if_true, h2, bind, Except.bind, hrt, Bool.false_eq_true, if_false, ha,
      not_true_eq_false, passed]

/-- C63, proved part: the arguments of routines arrive, and a single argument that consists of one character arrives.
Missing: all other arguments (`C63_violated`). -/
theorem C63_partial (P : Prog σ ρ) (hc : Idempotent P.canon) (hl : P.Lawful) (default : Option String) (s : σ)
    {t : String} {o : Nat} (hr : Resolves P.canon (P.core s) t o) :
    (P.routine o = true → ∀ args, ∃ s', SameMeaning P.canon (P.core s) (P.core s') ∧
      P.dispatch default (t :: args) s = P.invoke ⟨o, ((P.core s).obj o).defaultAction, args⟩ s') ∧
    ∀ a ch, P.routine o = false → a ∈ P.actions o → ∃ s', SameMeaning P.canon (P.core s) (P.core s') ∧
      P.dispatch default [t, a, String.ofList [ch]] s = P.invoke ⟨o, a, [String.ofList [ch]]⟩ s' := by
  refine ⟨fun hrt args => ?_, fun a ch hrt ha => ?_⟩
  · obtain ⟨s', h1, _, h2⟩ := (C62_dispatch P hc hl default (t :: args) s).1 _ (.routine hr hrt)
      (Or.inr ⟨t, rfl, hrt, hr⟩)
    exact ⟨s', h1, h2⟩
  · obtain ⟨s', h1, h2⟩ := (C63_violated P hc hl default s hr hrt ha).1 (String.ofList [ch])
    refine ⟨s', h1, h2.trans ?_⟩
    simp

/-- C64 is false of the code: whatever the action returns, also the verdict `False` of a failed build, the status of the
process is that of success. -/
theorem C64_violated (P : Prog σ Bool) (default : Option String) (args : List String) (s s' : σ) (verdict : Bool)
    (h : P.dispatch default args s = .ok (s', verdict)) : status (P.cliexecute default args s) = 0 := by
  simp only [Prog.cliexecute, h, status]

/-- C64, proved part: an error that ends `__cliexecute` itself (unknown target, exception) is visible in the status.
Missing: failed builds (`C64_violated`). -/
theorem C64_partial (P : Prog σ ρ) (default : Option String) (args : List String) (s : σ) (e : Err)
    (h : P.dispatch default args s = .error e) : status (P.cliexecute default args s) ≠ 0 := by
  simp only [Prog.cliexecute, h]
  cases e <;> simp [status]

/-- C91 is false of the code: a second call of `cliexecute` executes the arguments of the first one, whatever its own
`argv` is. -/
theorem C91_violated (P : Prog σ ρ) (free : List String → List String) (default default' : Option String)
    (argv argv' : List String) (s : σ) (s1 : Option (List String) × σ)
    (h : P.cliCall free default argv (none, s) = .ok s1) :
    P.cliCall free default' argv' s1 =
      (P.cliexecute default' (free argv) s1.2).map fun s2 => (some (free argv), s2) := by
  simp only [Prog.cliCall, parse] at h
  split at h
  · cases h
  · cases h
    simp only [Prog.cliCall, parse]
    split
    · rename_i e; rw [e]; rfl
    · rename_i e; rw [e]; rfl

/-- C91, proved part: the first call executes its own arguments.  Missing: later calls (`C91_violated`). -/
theorem C91_partial (P : Prog σ ρ) (free : List String → List String) (default : Option String) (argv : List String)
    (s : σ) : P.cliCall free default argv (none, s) =
      (P.cliexecute default (free argv) s).map fun s2 => (some (free argv), s2) := by
  simp only [Prog.cliCall, parse]
  split
  · rename_i e; rw [e]; rfl
  · rename_i e; rw [e]; rfl

/-! ### an example -/

/-- A program with the targets `app` and `run` (a routine).  `app` has the actions `build` and `clean`; `build` returns
the verdict `v`, the other actions `True`.  The state is the core and the list of calls made. -/
def demoProg (v : Bool) : Prog (Reg × List Call) Bool where
  canon n := n
  core := (·.1)
  setCore s c := (c, s.2)
  routine o := o = 1
  actions o := if o = 0 then ["build", "clean"] else ["update"]
  eval := .ok
  hasattr o a := o = 0 ∧ (a = "build" ∨ a = "clean") ∨ o = 1 ∧ a = "invoke_routine"
  act k s := .ok ((s.1, s.2 ++ [k]), if k.action = "build" then v else true)

/-- its core -/
def demoCore : Reg :=
  (Core.add (Core.add Reg.empty ⟨"app", [], true, [], "build"⟩).1 ⟨"run", [], true, [], "invoke_routine"⟩).1

/-- the assumptions of the theorems of this file are met, and the calls are as expected -/
example : Idempotent (demoProg true).canon ∧ (demoProg true).Lawful ∧
    Resolves (demoProg true).canon demoCore "app" 0 ∧ (demoProg true).routine 0 = false ∧ "clean" ∈ (demoProg true).actions 0 ∧
    Asks (demoProg true) demoCore (some "app") ["app", "clean"] ⟨0, "clean", []⟩ ∧
    Asks (demoProg true) demoCore (some "app") ["clean"] ⟨0, "clean", []⟩ ∧
    Asks (demoProg true) demoCore (some "app") ["run", "x", "yz"] ⟨1, "invoke_routine", ["x", "yz"]⟩ := by
  have h0 : Resolves (demoProg true).canon demoCore "app" 0 := Or.inl rfl
  refine ⟨fun _ => rfl, fun _ _ => rfl, h0, rfl, by decide, .action h0 rfl (by decide),
    .defaultAction rfl ?_ h0 (by decide), .routine (Or.inl rfl) rfl⟩
  rintro o' (h | ⟨_, h⟩) <;> cases h

/-- `licant app clean abc` calls `clean` with three arguments, `licant app clean a b` and `licant nothing` call nothing -/
example : ((demoProg true).dispatch none ["app", "clean", "abc"] (demoCore, [])).toOption.map (·.1.2) =
      some [⟨0, "clean", ["a", "b", "c"]⟩] ∧
    ((demoProg true).dispatch none ["app", "clean", "a", "b"] (demoCore, [])).toOption.map (·.1.2) = none ∧
    status ((demoProg true).cliexecute (some "app") ["nothing"] (demoCore, [])) = 255 := by
  refine ⟨by decide +kernel, by decide +kernel, by decide +kernel⟩

/-- two calls in one program: the second asks for `clean` and builds again -/
example : ((demoProg true).cliCall id (some "app") ["app"] (none, demoCore, [])).toOption.bind (fun s =>
      (((demoProg true).cliCall id (some "app") ["app", "clean"] s).toOption.map (·.2.2))) =
    some [⟨0, "build", []⟩, ⟨0, "build", []⟩] := by decide +kernel

/-- A build that fails: the solver returns `False` after the failure of a target, and `licant app` with this verdict
ends with status 0. -/
example : ∃ s, Solver.Exec Solver.diamondG 2 Solver.diamondFail s ∧ s.returned ∧ s.verdict = false ∧
    status ((demoProg s.verdict).cliexecute (some "app") [] (demoCore, [])) = 0 := by
  obtain ⟨s, h1, h2, h3⟩ := Solver.diamondFail_exec
  exact ⟨s, h1, h2, h3, by rw [h3]; decide +kernel⟩

end Licant.Misc
