/-
The variables of scripts: model of `exec(open(path).read(), globals())` in licant/scripter.py:12-25.  C127.
-/
import Verif.Py.Dict
import Verif.Py.Path

set_option autoImplicit false

namespace Licant.Misc.Names

open Licant.Py Licant.Py.Path

/-! ### Model -/

/-- What a name may stand for: the object that this name means in licant/scripter.py or among the builtins, or a value made by a
script, which is none of these objects. -/
inductive Val where
  | own (name : String)
  | user (v : Nat)
deriving DecidableEq

/-- The text of a script as far as its variables and `licant.execute` are concerned.  `set` is an assignment or an import at the
top level of the script (`import os` assigns `own "os"`), `get` uses the value of a variable, `none` if it is not defined;
`raises` is any exception. -/
inductive Script where
  | done
  | raises
  | set (x : String) (v : Val) (k : Script)
  | get (x : String) (k : Option Val → Script)
  | execute (path : Str) (k : Script)

/-- the builtins that `ScriptQueue.__execute` uses (licant/scripter.py:18) -/
def builtins : List String := ["open", "exec", "globals"]

/-- the other names that `licant.execute` (licant/__init__.py:32-33: the attribute `scriptq` of the module) and the methods of
`ScriptQueue` look up among the variables of scripter.py (licant/scripter.py:13, 15, 24, 31) -/
def modnames : List String := ["scriptq", "os", "default_core", "licant"]

/-- licant/scripter.py:1-4, 40: the variables of the module after `import licant` -/
def start : Dict String Val :=
  [("sys", .own "sys"), ("os", .own "os"), ("licant", .own "licant"), ("default_core", .own "default_core"),
   ("ScriptQueue", .own "ScriptQueue"), ("scriptq", .own "scriptq")]

/-- the value of a global variable: Python looks among the variables of the module, then among the builtins -/
def value (vars : Dict String Val) (x : String) : Option Val :=
  match vars.get x with
  | some v => some v
  | none => if x ∈ builtins then some (.own x) else none

/-- The state: the variables of scripter.py, the stack of scripts (licant/scripter.py:9, innermost first) and, a ghost, the
executed scripts. -/
structure St where
  vars : Dict String Val
  stack : List Str
  log : List Str

/-- a state and whether the execution returned -/
abbrev Res := St × Bool

def andThen (r : Res) (f : St → Res) : Res := if r.2 then f r.1 else r

/-- licant/scripter.py:18: a script runs with the variables of scripter.py as its globals; `exec` is `scriptq.execute` -/
def run (exec : Str → St → Res) : Script → St → Res
  | .done, st => (st, true)
  | .raises, st => (st, false)
  | .set x v k, st => run exec k { st with vars := st.vars.set x v }
  | .get x k, st => run exec (k (value st.vars x)) st
  | .execute p k, st => andThen (exec p st) (run exec k)

/-- licant/scripter.py:12-25, `execute` and `__execute`.  `usable` says whether a name still stands for what licant means by it:
if one of the names it uses does not, it raises.  `files` gives the scripts, the number bounds the nesting.  `licant.make.source`
(15) is not modelled. -/
def execute (usable : Dict String Val → Bool) (files : Str → Option Script) : Nat → Str → St → Res
  | 0, _, st => (st, false)
  | n + 1, path, st =>
    if usable st.vars then
      let p := join (dirname (st.stack.headD [])) path
      let st := { st with stack := p :: st.stack, log := st.log ++ [p] }
      match files p with
      | none => (st, false)
      | some prog =>
        let r := run (execute usable files n) prog st
        if r.2 then ({ r.1 with stack := r.1.stack.tail }, true) else r
    else (st, false)

/-- licant/scripter.py:12-31: all names that licant uses stand for what it means -/
def usable (vars : Dict String Val) : Bool := (modnames ++ builtins).all fun x => value vars x = some (.own x)

/-- licant/scripter.py:8-10: the state when the main script starts -/
def St.main (argv0 : Str) : St := ⟨start, [argv0], []⟩

/-! ### Specification -/

/-- The execution of scripts if licant looked up its own names in a place of its own. -/
def protectedExecute : (Str → Option Script) → Nat → Str → St → Res := execute fun _ => true

/-- The script never assigns anything else to a name that licant uses, whatever values it gets from variables. -/
inductive Careful : Script → Prop
  | done : Careful .done
  | raises : Careful .raises
  | set {x : String} {v : Val} {k : Script} :
    (x ∈ ["scriptq", "os", "default_core", "licant", "open", "exec", "globals"] → v = .own x) → Careful k → Careful (.set x v k)
  | get {x : String} {k : Option Val → Script} : (∀ v, Careful (k v)) → Careful (.get x k)
  | execute {p : Str} {k : Script} : Careful k → Careful (.execute p k)

/-! ### Proofs -/

theorem value_set (vars : Dict String Val) (x y : String) (v : Val) :
    value (vars.set x v) y = if x = y then some v else value vars y := by
  unfold value
  rw [Dict.get_set]
  by_cases h : x = y
  · rw [if_pos h, if_pos h]
  · rw [if_neg h, if_neg h]

theorem usable_iff {vars : Dict String Val} :
    usable vars = true ↔ ∀ x ∈ modnames ++ builtins, value vars x = some (.own x) := by
  unfold usable
  rw [List.all_eq_true]
  simp

theorem usable_start : usable start = true := by decide +kernel

theorem usable_set {vars : Dict String Val} {x : String} {v : Val} (h : usable vars = true)
    (hx : x ∈ ["scriptq", "os", "default_core", "licant", "open", "exec", "globals"] → v = .own x) : usable (vars.set x v) = true := by
  rw [usable_iff] at h ⊢
  intro y hy
  rw [value_set]
  split
  · rename_i he
    subst he
    rw [hx hy]
  · exact h y hy

variable {files : Str → Option Script}

/-- executions of careful scripts are not disturbed, and leave the names usable -/
def Agree (e e' : Str → St → Res) : Prop :=
  ∀ p st, usable st.vars = true → e p st = e' p st ∧ usable (e p st).1.vars = true

theorem run_agree {e e' : Str → St → Res} (he : Agree e e') {s : Script} (hs : Careful s) :
    ∀ st : St, usable st.vars = true → run e s st = run e' s st ∧ usable (run e s st).1.vars = true := by
  induction hs with
  | done => exact fun st h => ⟨rfl, h⟩
  | raises => exact fun st h => ⟨rfl, h⟩
  | set hx _ ih => exact fun st h => ih _ (usable_set h hx)
  | get _ ih => exact fun st h => ih _ st h
  | execute _ ih =>
    rename_i p _ _
    intro st h
    obtain ⟨h1, h2⟩ := he p st h
    simp only [run, andThen]
    rw [← h1]
    split
    · exact ih _ h2
    · exact ⟨rfl, h2⟩

theorem execute_agree (hf : ∀ p s, files p = some s → Careful s) : ∀ n,
    Agree (execute usable files n) (protectedExecute files n) := by
  intro n
  induction n with
  | zero => exact fun p st h => ⟨rfl, h⟩
  | succ n ih =>
    intro p st h
    unfold protectedExecute execute
    rw [if_pos h, if_pos rfl]
    simp only
    cases hp : files (join (dirname (st.stack.headD [])) p) with
    | none => exact ⟨rfl, h⟩
    | some prog =>
      simp only
      obtain ⟨h1, h2⟩ := run_agree ih (hf _ _ hp)
        { st with stack := join (dirname (st.stack.headD [])) p :: st.stack,
                  log := st.log ++ [join (dirname (st.stack.headD [])) p] } h
      have h1' := h1
      unfold protectedExecute at h1'
      rw [← h1']
      refine ⟨rfl, ?_⟩
      split
      · exact h2
      · exact h2

/-- **C127**, as far as it holds: if no script assigns another value to one of the seven names `scriptq`, `os`, `default_core`,
`licant`, `open`, `exec` and `globals`, then every execution of scripts goes as if licant had its names for itself: the same
scripts are executed, with the same values of all variables, and it ends in the same way. -/
theorem C127_partial (hf : ∀ p s, files p = some s → Careful s) (n : Nat) (argv0 path : Str) :
    execute usable files n path (St.main argv0) = protectedExecute files n path (St.main argv0) :=
  (execute_agree hf n path _ usable_start).1

/-- The scripts `a.py`: `import os; x = 1; execute("b.py"); execute("b.py")`, and `b.py`: `y = x`. -/
def goodFiles (p : Str) : Option Script :=
  if p = "d/a.py".toList then some (.set "os" (.own "os") (.set "x" (.user 1) (.execute "b.py".toList
    (.execute "b.py".toList .done))))
  else if p = "d/b.py".toList then some (.get "x" fun v => match v with
    | some v => .set "y" v .done
    | none => .raises)
  else none

/-- the assumption of C127_partial can be met: the scripts run, and the second one sees the variable of the first -/
example : (∀ p s, goodFiles p = some s → Careful s) ∧
    let r := execute usable goodFiles 5 "a.py".toList (St.main "d/main.py".toList)
    r.2 = true ∧ r.1.log = ["d/a.py".toList, "d/b.py".toList, "d/b.py".toList] ∧ r.1.stack = ["d/main.py".toList] ∧
      value r.1.vars "y" = some (.user 1) := by
  constructor
  · intro p s h
    unfold goodFiles at h
    split at h
    · cases h
      exact .set (fun _ => rfl) (.set (by decide) (.execute (.execute .done)))
    split at h
    · cases h
      refine .get fun v => ?_
      cases v with
      | none => exact .raises
      | some v => exact .set (fun h => absurd h (by decide)) .done
    · cases h
  · decide +kernel

/-- The scripts `a.py`: `os = "linux"`, and `b.py`: nothing, executed one after the other by `main.py` -/
def badFiles (x : String) (p : Str) : Option Script :=
  if p = "d/all.py".toList then some (.execute "a.py".toList (.execute "b.py".toList .done))
  else if p = "d/a.py".toList then some (.set x (.user 0) .done)
  else if p = "d/b.py".toList then some .done
  else none

/-- **C127** is violated for each of the seven names: if one script assigns something to it, the next script is not executed. -/
theorem C127_violated : ∀ x ∈ ["scriptq", "os", "default_core", "licant", "open", "exec", "globals"],
    let r := execute usable (badFiles x) 5 "all.py".toList (St.main "d/main.py".toList)
    let r' := protectedExecute (badFiles x) 5 "all.py".toList (St.main "d/main.py".toList)
    r.2 = false ∧ r.1.log = ["d/all.py".toList, "d/a.py".toList] ∧
    r'.2 = true ∧ r'.1.log = ["d/all.py".toList, "d/a.py".toList, "d/b.py".toList] := by
  decide +kernel

/-- With any other name the second script is executed. -/
example : let r := execute usable (badFiles "sys") 5 "all.py".toList (St.main "d/main.py".toList)
    r.2 = true ∧ r.1.log = ["d/all.py".toList, "d/a.py".toList, "d/b.py".toList] := by
  decide +kernel

end Licant.Misc.Names
