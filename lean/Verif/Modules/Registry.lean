/-
The module library: C45.
-/
import Mathlib.Data.List.Induction
import Verif.Modules.Model

set_option autoImplicit false

namespace Licant.Modules
open Licant.Py

/-! ### specification -/

/-- what a script does with the module library -/
inductive Op where
  | module (script name : String) (impl : Option String) (default : Bool) (kwargs : Opts)
  | implementation (script name impl : String) (default : Bool) (kwargs : Opts)
  /-- `module_default_implementation(name, impl)` -/
  | choose (name impl : String)
  /-- `mlibrary.get(name, impl)` -/
  | lookup (name : String) (impl : Option String)

/-- one of these calls, licant/modules.py:47, 114, 121, 156-157 -/
def Lib.op (L : Lib) : Op → Except Err Lib
  | .module script name impl default kwargs => L.module script name impl default kwargs
  | .implementation script name impl default kwargs => L.implementation script name impl default kwargs
  | .choose name impl => L.setDefimpl name impl true
  | .lookup name impl => (L.get name impl).map (·.1)

def Lib.run (L : Lib) (ops : List Op) : Except Err Lib := ops.foldlM Lib.op L

/-- what the call says about the implementation `i` of the module `n`: script and options -/
def Op.registers (n i : String) : Op → Option (String × Opts)
  | .module script name none _ kwargs => if name = n ∧ i = "__default__" then some (script, kwargs) else none
  | .module script name (some impl) _ kwargs => if name = n ∧ impl = i then some (script, kwargs) else none
  | .implementation script name impl _ kwargs => if name = n ∧ impl = i then some (script, kwargs) else none
  | _ => none

/-- which implementation of `n` the call makes the default one -/
def Op.chooses (n : String) : Op → Option String
  | .module _ name none _ _ => if name = n then some "__default__" else none
  | .module _ name (some impl) true _ => if name = n then some impl else none
  | .implementation _ name impl true _ => if name = n then some impl else none
  | .choose name impl => if name = n then some impl else none
  | _ => none

/-- what the latest call says that says anything -/
def latest {α : Type} (f : Op → Option α) (ops : List Op) : Option α := ops.reverse.findSome? f

/-- some implementation of `n` was registered -/
def Known (ops : List Op) (n : String) : Prop := ∃ i r, latest (Op.registers n i) ops = some r

/-- `m` is the module declared in `script` with the options `kwargs` -/
structure IsModule (m : Mod) (n i script : String) (kwargs : Opts) : Prop where
  name : m.name = n
  impl : m.impl = some i
  opts : ∀ k, k ≠ "__script__" → k ≠ "__dir__" → m.opts.get k = kwargs.get k
  dir : m.opts.get "__dir__" = some (.str (String.ofList (Path.dirname script.toList)))

/-- `m` has no options -/
def IsEmptyModule (m : Mod) (n i : String) : Prop :=
  m.name = n ∧ m.impl = some i ∧ ∀ k v, m.opts.get k = some v → k = "__script__" ∨ k = "__dir__"

/-! ### proof -/

/-- the module object registered for `(n, i)` -/
def Lib.find (L : Lib) (n i : String) : Option Nat := (L.modules.get n).bind (·.get i)

theorem latest_snoc {α : Type} (f : Op → Option α) (ops : List Op) (op : Op) :
    latest f (ops ++ [op]) = (f op).or (latest f ops) := by
  unfold latest
  rw [List.reverse_append, List.reverse_singleton, List.singleton_append, List.findSome?_cons]
  cases f op <;> rfl

theorem find_registerImpl (L : Lib) (m : Mod) (impl n i : String) :
    (L.registerImpl m impl).find n i = if m.name = n ∧ impl = i then some L.next else L.find n i := by
  unfold Lib.find Lib.registerImpl
  simp only [Dict.get_set]
  by_cases hn : m.name = n
  · subst hn
    simp only [if_true, Option.bind_some, Dict.get_set, true_and]
    by_cases hi : impl = i
    · simp [hi]
    · simp only [hi, if_false]
      cases L.modules.get m.name <;> rfl
  · simp [hn]

theorem has_registerImpl (L : Lib) (m : Mod) (impl n : String) :
    (L.registerImpl m impl).modules.get n = none ↔ m.name ≠ n ∧ L.modules.get n = none := by
  unfold Lib.registerImpl
  simp only [Dict.get_set]
  by_cases hn : m.name = n <;> simp [hn]

theorem getImpl_eq (L : Lib) (n i : String) :
    L.getImpl n i =
      match L.find n i with
      | some o => .ok (L, o)
      | none =>
        if i = "__none__" ∧ L.modules.get n ≠ none then
          .ok (L.registerImpl (newMod n .none .none []) "__none__", L.next)
        else .error .exit := by
  unfold Lib.getImpl Lib.find
  cases hm : L.modules.get n with
  | none => simp
  | some v =>
    simp only [Option.bind_some]
    cases v.get i with
    | some o => rfl
    | none => simp

theorem get_some (L : Lib) (n i : String) : L.get n (some i) = L.getImpl n i := by
  unfold Lib.get Lib.getImpl
  cases L.modules.get n <;> rfl

theorem get_none (L : Lib) (n : String) : L.get n none = L.getDefault n := by
  unfold Lib.get Lib.getDefault
  cases hm : L.modules.get n with
  | some v => rfl
  | none =>
    cases L.defimpls.get n with
    | none => rfl
    | some i =>
      simp only [getImpl_eq, Lib.find, hm]
      simp

/-- what the library knows after the calls `ops` -/
structure Rel (L : Lib) (ops : List Op) : Prop where
  found : ∀ n i o, L.find n i = some o → o < L.next ∧
    match latest (Op.registers n i) ops with
    | some (script, kwargs) => IsModule (L.obj o) n i script kwargs
    | none => i = "__none__" ∧ IsEmptyModule (L.obj o) n i
  reg : ∀ n i r, latest (Op.registers n i) ops = some r → L.find n i ≠ none
  known : ∀ n, L.modules.get n ≠ none ↔ Known ops n
  chosen : ∀ n, L.defimpls.get n = latest (Op.chooses n) ops

theorem isModule_new (n i script : String) (kwargs : Opts) :
    IsModule { newMod n (.str script) (.str (String.ofList (Path.dirname script.toList))) kwargs with
      impl := some i } n i script kwargs := by
  refine ⟨rfl, rfl, ?_, ?_⟩
  · intro k h1 h2
    simp only [newMod]
    rw [Dict.get_set_ne _ _ (Ne.symm h2), Dict.get_set_ne _ _ (Ne.symm h1)]
  · simp [newMod]

/-- the effect of `implementation` -/
theorem rel_implementation {L L' : Lib} {ops : List Op} (h : Rel L ops) {op : Op} {script name impl : String}
    {default : Bool} {kwargs : Opts}
    (hreg : ∀ n i, op.registers n i = if name = n ∧ impl = i then some (script, kwargs) else none)
    (hch : ∀ n, op.chooses n = if name = n ∧ default = true then some impl else none)
    (hr : L.implementation script name impl default kwargs = .ok L') : Rel L' (ops ++ [op]) := by
  have hL' : L' = { L.registerImpl (newMod name (.str script)
      (.str (String.ofList (Path.dirname script.toList))) kwargs) impl with
      defimpls := if default then L.defimpls.set name impl else L.defimpls } := by
    unfold Lib.implementation at hr
    simp only [Lib.setDefimpl, Bool.not_true, Bool.and_false, Bool.false_eq_true, if_false] at hr
    cases default
    · simp only [Bool.false_eq_true, if_false] at hr ⊢
      cases hr; rfl
    · simp only [if_true] at hr ⊢
      cases hr; rfl
  have hfind : ∀ n i, L'.find n i = if name = n ∧ impl = i then some L.next else L.find n i := by
    intro n i
    rw [hL']
    exact find_registerImpl L _ impl n i
  have hnext : L'.next = L.next + 1 := by rw [hL']; rfl
  have hobj : ∀ o, L'.obj o = if o = L.next then
      { newMod name (.str script) (.str (String.ofList (Path.dirname script.toList))) kwargs with
        impl := some impl } else L.obj o := by rw [hL']; exact fun o => rfl
  refine ⟨?_, ?_, ?_, ?_⟩
  · intro n i o ho
    rw [hfind] at ho
    rw [latest_snoc, hreg, hnext, hobj]
    by_cases hni : name = n ∧ impl = i
    · rw [if_pos hni] at ho ⊢
      cases ho
      rw [if_pos rfl]
      obtain ⟨rfl, rfl⟩ := hni
      exact ⟨by omega, isModule_new _ _ _ _⟩
    · rw [if_neg hni] at ho ⊢
      have := h.found n i o ho
      rw [if_neg (by omega)]
      exact ⟨by omega, this.2⟩
  · intro n i r hlr
    rw [latest_snoc, hreg] at hlr
    rw [hfind]
    split
    · simp
    · rename_i hni
      rw [if_neg hni] at hlr
      exact h.reg n i r hlr
  · intro n
    have : L'.modules.get n = none ↔ name ≠ n ∧ L.modules.get n = none := by
      rw [hL']; exact has_registerImpl L _ impl n
    rw [ne_eq, this, Known]
    constructor
    · intro hn
      by_cases hnn : name = n
      · exact ⟨impl, (script, kwargs), by rw [latest_snoc, hreg]; simp [hnn]⟩
      · obtain ⟨i, r, hir⟩ := (h.known n).1 (fun e => hn ⟨hnn, e⟩)
        exact ⟨i, r, by rw [latest_snoc, hreg]; simpa [hnn] using hir⟩
    · rintro ⟨i, r, hir⟩ ⟨hnn, hm⟩
      rw [latest_snoc, hreg] at hir
      simp only [hnn, false_and, if_false, Option.none_or] at hir
      exact (h.known n).2 ⟨i, r, hir⟩ hm
  · intro n
    rw [latest_snoc, hch, hL']
    simp only
    cases default
    · simpa using h.chosen n
    · simp only [if_true, Dict.get_set, and_true]
      by_cases hnn : name = n
      · simp [hnn]
      · simpa [hnn] using h.chosen n

theorem rel_op {L L' : Lib} {ops : List Op} (h : Rel L ops) (op : Op) (hr : L.op op = .ok L') :
    Rel L' (ops ++ [op]) := by
  cases op with
  | module script name impl default kwargs =>
    cases impl with
    | none =>
      refine rel_implementation h (impl := "__default__") (default := true) ?_ ?_ hr
      · intro n i; simp only [Op.registers, eq_comm (a := i)]
      · intro n; simp [Op.chooses]
    | some impl =>
      refine rel_implementation h (impl := impl) (default := default) ?_ ?_ hr
      · intro n i; rfl
      · intro n; cases default <;> simp [Op.chooses]
  | implementation script name impl default kwargs =>
    refine rel_implementation h (impl := impl) (default := default) ?_ ?_ hr
    · intro n i; rfl
    · intro n; cases default <;> simp [Op.chooses]
  | choose name impl =>
    simp only [Lib.op, Lib.setDefimpl, Bool.not_true, Bool.and_false, Bool.false_eq_true, if_false] at hr
    cases hr
    have hreg : ∀ n i, latest (Op.registers n i) (ops ++ [.choose name impl]) = latest (Op.registers n i) ops := by
      intro n i; rw [latest_snoc]; rfl
    refine ⟨?_, ?_, ?_, ?_⟩
    · intro n i o ho
      rw [hreg]
      exact h.found n i o ho
    · intro n i r hlr
      rw [hreg] at hlr
      exact h.reg n i r hlr
    · intro n
      simp only [Known, hreg]
      exact h.known n
    · intro n
      rw [latest_snoc]
      simp only [Dict.get_set, Op.chooses]
      by_cases hnn : name = n
      · simp [hnn]
      · simpa [hnn] using h.chosen n
  | lookup name impl =>
    have hreg : ∀ n i, latest (Op.registers n i) (ops ++ [.lookup name impl]) = latest (Op.registers n i) ops := by
      intro n i; rw [latest_snoc]; rfl
    have hch : ∀ n, latest (Op.chooses n) (ops ++ [.lookup name impl]) = latest (Op.chooses n) ops := by
      intro n; rw [latest_snoc]; rfl
    have key : ∀ i, (L.getImpl name i).map (·.1) = .ok L' → Rel L' (ops ++ [.lookup name impl]) := by
      intro i hi
      rw [getImpl_eq] at hi
      cases hf : L.find name i with
      | some o =>
        rw [hf] at hi
        cases hi
        refine ⟨?_, ?_, ?_, ?_⟩
        · intro n i o ho
          rw [hreg]
          exact h.found n i o ho
        · intro n i r hlr
          rw [hreg] at hlr
          exact h.reg n i r hlr
        · intro n
          simp only [Known, hreg]
          exact h.known n
        · intro n
          rw [hch]
          exact h.chosen n
      | none =>
        rw [hf] at hi
        simp only at hi
        split at hi
        · rename_i hc
          obtain ⟨rfl, hk⟩ := hc
          cases hi
          refine ⟨?_, ?_, ?_, ?_⟩
          · intro n i o ho
            rw [hreg]
            rw [find_registerImpl] at ho
            show o < L.next + 1 ∧ _
            by_cases hni : (newMod name .none .none []).name = n ∧ "__none__" = i
            · rw [if_pos hni] at ho
              cases ho
              obtain ⟨hn1, rfl⟩ := hni
              have hn1 : name = n := hn1
              subst hn1
              have hno : latest (Op.registers name "__none__") ops = none := by
                cases hl : latest (Op.registers name "__none__") ops with
                | none => rfl
                | some r => exact absurd hf (h.reg _ _ r hl)
              rw [hno]
              refine ⟨by omega, rfl, ?_, ?_, ?_⟩
              · simp [Lib.registerImpl, newMod]
              · simp [Lib.registerImpl]
              · intro k v hv
                simp only [Lib.registerImpl, if_true, newMod, Dict.get_set] at hv
                by_cases h1 : "__dir__" = k
                · exact Or.inr h1.symm
                · by_cases h2 : "__script__" = k
                  · exact Or.inl h2.symm
                  · simp [h1, h2] at hv
            · rw [if_neg hni] at ho
              have := h.found n i o ho
              have hobj : (L.registerImpl (newMod name .none .none []) "__none__").obj o = L.obj o := by
                simp only [Lib.registerImpl]
                rw [if_neg (by omega)]
              rw [hobj]
              exact ⟨by omega, this.2⟩
          · intro n i r hlr
            rw [hreg] at hlr
            rw [find_registerImpl]
            split
            · simp
            · exact h.reg n i r hlr
          · intro n
            simp only [Known, hreg]
            rw [ne_eq, has_registerImpl]
            constructor
            · intro hn
              refine (h.known n).1 ?_
              intro e
              by_cases hnn : name = n
              · rw [← hnn] at e; exact hk e
              · exact hn ⟨hnn, e⟩
            · intro hn e
              exact (h.known n).2 hn e.2
          · intro n
            rw [hch]
            exact h.chosen n
        · cases hi
    cases impl with
    | some i =>
      simp only [Lib.op, get_some] at hr
      exact key i hr
    | none =>
      simp only [Lib.op, get_none, Lib.getDefault] at hr
      split at hr
      · cases hr
      · rename_i i _
        exact key i hr

theorem rel_run {ops : List Op} : ∀ {L : Lib}, Lib.empty.run ops = .ok L → Rel L ops := by
  induction ops using List.reverseRecOn with
  | nil =>
    intro L h
    cases h
    refine ⟨?_, ?_, ?_, ?_⟩
    · intro n i o h; cases h
    · intro n i r h; cases h
    · intro n
      constructor
      · intro h; exact absurd rfl h
      · rintro ⟨i, r, h⟩; cases h
    · intro n; rfl
  | append_singleton ops op ih =>
    intro L h
    unfold Lib.run at h
    rw [List.foldlM_append] at h
    simp only [List.foldlM_cons, List.foldlM_nil, bind, Except.bind, pure, Except.pure] at h
    split at h
    · cases h
    · rename_i L1 h1
      split at h
      · cases h
      · rename_i L2 h2
        cases h
        exact rel_op (ih h1) op h2

/-- C45: after any history of calls, `mlibrary.get` with an implementation returns the latest module
registered for it, an empty module for `__none__` of a known name if nothing was registered for it, and
otherwise ends the program; without an implementation it does the same with the latest default choice, and
ends the program if there is none. -/
theorem C45_registry {ops : List Op} {L : Lib} (h : Lib.empty.run ops = .ok L) (n : String) :
    (∀ i script kwargs, latest (Op.registers n i) ops = some (script, kwargs) →
      ∃ o, L.get n (some i) = .ok (L, o) ∧ IsModule (L.obj o) n i script kwargs) ∧
    (latest (Op.registers n "__none__") ops = none → Known ops n →
      ∃ L' o, L.get n (some "__none__") = .ok (L', o) ∧ IsEmptyModule (L'.obj o) n "__none__") ∧
    (∀ i, latest (Op.registers n i) ops = none → i ≠ "__none__" ∨ ¬ Known ops n →
      L.get n (some i) = .error .exit) ∧
    (∀ i, latest (Op.chooses n) ops = some i → L.get n none = L.get n (some i)) ∧
    (latest (Op.chooses n) ops = none → L.get n none = .error .exit) := by
  have hr := rel_run h
  refine ⟨?_, ?_, ?_, ?_, ?_⟩
  · intro i script kwargs hl
    obtain ⟨o, ho⟩ := Option.ne_none_iff_exists'.1 (hr.reg n i _ hl)
    refine ⟨o, by rw [get_some, getImpl_eq, ho], ?_⟩
    have := (hr.found n i o ho).2
    rw [hl] at this
    exact this
  · intro hl hk
    rw [get_some, getImpl_eq]
    cases hf : L.find n "__none__" with
    | some o =>
      have := (hr.found n _ o hf).2
      rw [hl] at this
      exact ⟨L, o, rfl, this.2⟩
    | none =>
      simp only [true_and]
      rw [if_pos ((hr.known n).2 hk)]
      refine ⟨_, _, rfl, ?_, ?_, ?_⟩
      · simp [Lib.registerImpl, newMod]
      · simp [Lib.registerImpl]
      · intro k v hv
        simp only [Lib.registerImpl, if_true, newMod, Dict.get_set] at hv
        by_cases h1 : "__dir__" = k
        · exact Or.inr h1.symm
        · by_cases h2 : "__script__" = k
          · exact Or.inl h2.symm
          · simp [h1, h2] at hv
  · intro i hl hc
    rw [get_some, getImpl_eq]
    have hno : i = "__none__" → L.modules.get n = none := by
      intro e
      rcases hc with hc | hc
      · exact absurd e hc
      · by_contra hne
        exact hc ((hr.known n).1 hne)
    cases hf : L.find n i with
    | some o =>
      have := (hr.found n _ o hf).2
      rw [hl] at this
      have hm := hno this.1
      simp [Lib.find, hm] at hf
    | none =>
      simp only
      rw [if_neg (fun e => e.2 (hno e.1))]
  · intro i hi
    rw [get_none, get_some, Lib.getDefault, hr.chosen n, hi]
  · intro hi
    rw [get_none, Lib.getDefault, hr.chosen n, hi]

/-- registrations and choices of defaults always succeed -/
theorem C45_returns : ∀ (ops : List Op) (L : Lib), (∀ n i, Op.lookup n i ∉ ops) → ∃ L', L.run ops = .ok L' := by
  intro ops
  induction ops with
  | nil => intro L _; exact ⟨L, rfl⟩
  | cons op ops ih =>
    intro L hno
    have : ∃ L1, L.op op = .ok L1 := by
      cases op with
      | module script name impl default kwargs =>
        cases impl <;> cases default <;>
          simp [Lib.op, Lib.module, Lib.implementation, Lib.setDefimpl]
      | implementation script name impl default kwargs =>
        cases default <;> simp [Lib.op, Lib.implementation, Lib.setDefimpl]
      | choose name impl => simp [Lib.op, Lib.setDefimpl]
      | lookup n i => exact absurd (by simp) (hno n i)
    obtain ⟨L1, h1⟩ := this
    obtain ⟨L2, h2⟩ := ih L1 (fun n i hm => hno n i (List.mem_cons_of_mem _ hm))
    refine ⟨L2, ?_⟩
    unfold Lib.run
    rw [List.foldlM_cons, h1]
    exact h2

/-- `m` in two implementations, registered twice, the default chosen twice, and an unknown one looked up -/
def regDemo : List Op :=
  [.module "/p/a.py" "m" none false [("libs", .list [])],
   .implementation "/p/b.py" "m" "fast" true [],
   .implementation "/q/c.py" "m" "fast" false [("target", .str "t")],
   .choose "m" "__default__", .lookup "m" (some "__none__")]

example : ∃ L, Lib.empty.run regDemo = .ok L ∧ L.next = 4 ∧
    (latest (Op.registers "m" "fast") regDemo).map (·.1) = some "/q/c.py" ∧
    latest (Op.chooses "m") regDemo = some "__default__" ∧
    (L.get "m" (some "fast")).toOption.map (·.2) = some 2 ∧
    (L.get "m" none).toOption.map (·.2) = some 0 ∧
    (L.get "m" (some "__none__")).toOption.map (·.2) = some 3 ∧
    (L.get "m" (some "slow")).toOption.map (·.2) = none :=
  ⟨_, rfl, by decide +kernel, by decide +kernel, by decide +kernel, by decide +kernel, by decide +kernel,
    by decide +kernel, by decide +kernel⟩

end Licant.Modules
