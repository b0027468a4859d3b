/-
Registration of routines (licant/core.py:141-164, 398-416, 426-427): C112.
-/
import Verif.Core.Update

set_option autoImplicit false

namespace Licant.Core
open Licant.Py

/-! ### Model -/

/-- What registration looks at in a callable object: whether `inspect.isfunction` holds (only for functions written in Python:
not for methods of objects, `functools.partial` objects, built-in functions, classes and objects with `__call__`), and its
attribute `__name__`, which may be missing. -/
structure Callables (F : Type) where
  isFunction : F → Bool
  name : F → Option String

/-- The arguments of `routine` by name: `deps`, `tgt`, and whether `update_if` is given (`none` if not). -/
structure RoutineArgs (U : Type) where
  deps : List String := []
  tgt : Option String := none
  updateIf : Option U := none

/-- A core with routines: `func` and `updateIf` are attributes of the target objects. -/
structure RCore (F U : Type) where
  reg : Reg
  func : Nat → Option F
  updateIf : Nat → Option U

/-- What `routine` returns. -/
inductive Returned (F U : Type) where
  /-- the function it was given -/
  | given (f : F)
  /-- the local function `decorator` (core.py:162-164), with the arguments it remembers -/
  | decorator (k : RoutineArgs U)

variable {F U : Type}

/-- core.py:141-143 `routine_do`, 398-416 `Routine.__init__`.  The default of `update_if` is `lambda s: True`
(`none` in the model). -/
def routineDo (C : Callables F) (c : RCore F U) (f : F) (k : RoutineArgs U) : Except Err (RCore F U × Returned F U) :=
  match k.tgt.orElse fun _ => C.name f with
  | none => .error .attribute
  | some n =>
    let r := add c.reg ⟨n, k.deps, true, [], "invoke_routine"⟩
    .ok (⟨r.1, fun o => if o = r.2 then some f else c.func o, fun o => if o = r.2 then k.updateIf else c.updateIf o⟩, .given f)

/-- core.py:145-164 `Core.routine`, 426-427 `routine` -/
def routine (C : Callables F) (c : RCore F U) (f : Option F) (k : RoutineArgs U) : Except Err (RCore F U × Returned F U) :=
  match f with
  | some f => if C.isFunction f then routineDo C c f k else .ok (c, .decorator k)
  | none => .ok (c, .decorator k)

/-- core.py:162-164: what a decorator does with a callable object; calling a registered function runs it and is not
modelled -/
def Returned.decorate (C : Callables F) (c : RCore F U) (f : F) : Returned F U → Except Err (RCore F U × Returned F U)
  | .given _ => .error .user
  | .decorator k => routineDo C c f k

/-! ### Specification -/

/-- `c'` is `c` with one more target, called `n`: it runs `f`, depends on `deps`, is out of date as `u` says (always, if `u` is
`none`), and its default action runs it. -/
structure NewRoutine (c c' : RCore F U) (n : String) (f : F) (deps : List String) (u : Option U) : Prop where
  target : ∃ o, c'.reg.targets.get n = some o ∧ (∀ m, c.reg.targets.get m ≠ some o) ∧
    c'.func o = some f ∧ c'.updateIf o = u ∧ c'.reg.obj o = ⟨n, deps, true, [], "invoke_routine"⟩
  others : ∀ m, m ≠ n → c'.reg.targets.get m = c.reg.targets.get m
  objects : ∀ m o, c.reg.targets.get m = some o → c'.reg.obj o = c.reg.obj o ∧ c'.func o = c.func o ∧
    c'.updateIf o = c.updateIf o

/-- the objects in the dictionary have been made -/
def RCore.Good (c : RCore F U) : Prop := ∀ m o, c.reg.targets.get m = some o → o < c.reg.next

/-! ### C112 -/

theorem routineDo_new {C : Callables F} {c : RCore F U} (hc : c.Good) {f : F} {k : RoutineArgs U} {n : String}
    (hn : k.tgt = some n ∨ k.tgt = none ∧ C.name f = some n) :
    ∃ c', routineDo C c f k = .ok (c', .given f) ∧ NewRoutine c c' n f k.deps k.updateIf ∧ c'.Good := by
  have h : (k.tgt.orElse fun _ => C.name f) = some n := by
    rcases hn with h | ⟨h1, h2⟩
    · rw [h]; rfl
    · rw [h1, h2]; rfl
  unfold routineDo
  rw [h]
  refine ⟨_, rfl, ⟨⟨c.reg.next, ?_, ?_, ?_, ?_, ?_⟩, ?_, ?_⟩, ?_⟩
  · exact Dict.get_set_self _ _ _
  · intro m hm
    exact absurd (hc m _ hm) (by omega)
  · simp [add]
  · simp [add]
  · simp [add]
  · intro m hm
    exact Dict.get_set_ne _ _ (Ne.symm hm)
  · intro m o hm
    have : o ≠ c.reg.next := by have := hc m o hm; omega
    simp [add, this]
  · intro m o hm
    change (c.reg.targets.set n c.reg.next).get m = some o at hm
    change o < c.reg.next + 1
    by_cases e : m = n
    · subst e
      rw [Dict.get_set_self] at hm
      cases hm
      omega
    · rw [Dict.get_set_ne _ _ (Ne.symm e)] at hm
      have := hc m o hm
      omega

/-- **C112** is false of the code: given a callable object that is no plain function, `routine(f)` and `routine(f, tgt="x")`
register nothing: the core is what it was, the result is not the object, and a name that was unknown is still unknown. -/
theorem C112_violated (C : Callables F) (canon : String → String) (c : RCore F U) (f : F) (hf : C.isFunction f = false)
    (k : RoutineArgs U) :
    ∃ r, routine C c (some f) k = .ok (c, r) ∧ r ≠ .given f ∧
      ∀ n, k.tgt = some n → (∀ o, ¬ Resolves canon c.reg n o) → get canon c.reg n = .error .exit := by
  refine ⟨.decorator k, by simp [routine, hf], by simp, fun n _ h => get_err.1 h⟩

/-- **C112**, what holds: functions, registered directly or by the decorator, with or without arguments, and other callable
objects registered by a decorator with arguments, become targets under the given name, or their own, and the caller gets
the object back.
Missing: callable objects that are no plain functions, registered directly (`C112_violated`). -/
theorem C112_partial (C : Callables F) (c : RCore F U) (hc : c.Good) (f : F) (k : RoutineArgs U) (n : String)
    (hn : k.tgt = some n ∨ k.tgt = none ∧ C.name f = some n) :
    (C.isFunction f = true → ∃ c', routine C c (some f) k = .ok (c', .given f) ∧ NewRoutine c c' n f k.deps k.updateIf ∧
      c'.Good) ∧
    (∃ r c', routine C c none k = .ok (c, r) ∧ r.decorate C c f = .ok (c', .given f) ∧
      NewRoutine c c' n f k.deps k.updateIf ∧ c'.Good) := by
  obtain ⟨c', h1, h2, h3⟩ := routineDo_new hc hn
  exact ⟨fun hf => ⟨c', by simp [routine, hf, h1], h2, h3⟩, .decorator k, c', rfl, h1, h2, h3⟩

/-- the decorator made by one call can be used for any number of functions -/
theorem C112_decorator_again (C : Callables F) (c : RCore F U) (hc : c.Good) (k : RoutineArgs U) (hk : k.tgt = none)
    (fs : List F) (names : List String) (hn : List.Forall₂ (fun f n => C.name f = some n) fs names) (hd : names.Nodup) :
    ∃ c', fs.foldlM (fun c f => ((Returned.decorator k).decorate C c f).map (·.1)) c = .ok c' ∧ c'.Good ∧
      List.Forall₂ (fun f n => ∃ o, c'.reg.targets.get n = some o ∧ c'.func o = some f) fs names ∧
      (∀ m, m ∉ names → c'.reg.targets.get m = c.reg.targets.get m) ∧
      (∀ m o, m ∉ names → c.reg.targets.get m = some o → c'.func o = c.func o) := by
  induction hn generalizing c with
  | nil => exact ⟨c, rfl, hc, .nil, fun _ _ => rfl, fun _ _ _ _ => rfl⟩
  | @cons f n fs names h1 _ ih =>
    obtain ⟨hd1, hd2⟩ := List.nodup_cons.1 hd
    obtain ⟨c1, e1, e2, e3⟩ := routineDo_new hc (Or.inr ⟨hk, h1⟩)
    obtain ⟨c', k1, k2, k3, k4, k5⟩ := ih c1 e3 hd2
    obtain ⟨o, o1, o2, o3, _, _⟩ := e2.target
    refine ⟨c', ?_, k2, .cons ⟨o, ?_, ?_⟩ k3, fun m hm => ?_, fun m o' hm ho' => ?_⟩
    · rw [List.foldlM_cons]
      simp only [Returned.decorate, e1, Except.map, bind, Except.bind]
      exact k1
    · rw [k4 n hd1, o1]
    · rw [k5 n o hd1 o1, o3]
    · rw [k4 m (fun h => hm (List.mem_cons_of_mem _ h)), e2.others m (fun h => hm (h ▸ List.mem_cons_self))]
    · have hmn : m ≠ n := fun h => hm (h ▸ List.mem_cons_self)
      rw [k5 m o' (fun h => hm (List.mem_cons_of_mem _ h)) (by rw [e2.others m hmn]; exact ho'), (e2.objects m o' ho').2.1]

/-! ### an example: the functions `flash` and `test`, and the method `obj.run` -/

inductive DemoF where
  | flash | test | method
deriving DecidableEq

def demoC : Callables DemoF where
  isFunction f := f ≠ .method
  name
    | .flash => some "flash"
    | .test => some "test"
    | .method => some "run"

def emptyR : RCore DemoF Unit := ⟨Reg.empty, fun _ => none, fun _ => none⟩

/-- the hypotheses hold: `routine(flash, deps=["app"])`, `@routine(tgt="t") def test`, `routine()(obj.run)`, and
`routine(obj.run)`, which does nothing -/
example : emptyR.Good ∧ demoC.isFunction .flash = true ∧ demoC.name .flash = some "flash" ∧
    demoC.isFunction .method = false ∧ (∀ o, ¬ Resolves id emptyR.reg "run" o) ∧
    List.Forall₂ (fun f n => demoC.name f = some n) [.flash, .test] ["flash", "test"] :=
  ⟨fun m o h => (by cases h), rfl, rfl, rfl, fun o h => (by rcases h with h | ⟨_, h⟩ <;> cases h),
    .cons rfl (.cons rfl .nil)⟩

end Licant.Core
