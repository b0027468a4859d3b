/-
A concrete project and concrete builds of it, used to show that the hypotheses of the theorems
about builds can be met.
-/
import Verif.Make.Inv

set_option autoImplicit false

namespace Licant.Make
open Licant.Py Licant.Core Relation

/-- source `a.c`, directory `d`, files `d/a.o` and `d/app`, file set `all` -/
def demo : Proj Nat where
  reg :=
    { targets := [("a.c", 0), ("d", 1), ("d/a.o", 2), ("d/app", 3), ("all", 4)]
      obj := fun
        | 0 => ⟨"a.c", [], true, [], "makefile"⟩
        | 1 => ⟨"d", [], true, [], "makefile"⟩
        | 2 => ⟨"d/a.o", ["a.c", "d"], true, [], "makefile"⟩
        | 3 => ⟨"d/app", ["d/a.o", "d"], true, [], "makefile"⟩
        | 4 => ⟨"all", ["d/app"], true, [], "makefile"⟩
        | _ => ⟨"", [], false, [], "action"⟩
      next := 5 }
  kind := fun
    | 0 => .source
    | 1 => .dir
    | 2 => .file
    | 3 => .file
    | 4 => .fileset
    | _ => .other
  force := fun _ => false
  upd := fun _ => .ok false
  cmd := fun o f => if o = 2 then (f "a.c").getD 0 + 10 else if o = 3 then (f "d/a.o").getD 0 + 100 else 0
  parents := fun _ => []

/-- only the source, time stamp 1, contents 5 -/
def demoFs : FS Nat := fun p => if p = "a.c" then some ⟨1, some 5⟩ else none

/-! ### tools for concrete builds -/

section Tools
variable {α : Type} {P : Proj α} {canon : String → String} {root : Nat} {fs0 : FS α}
  {cache0 : FileCache}

def runEvs (P : Proj α) (need : Nat → Option Bool) (objs : List Nat) (g : Solver.Graph) :
    St α → List (Ev α) → Option (St α)
  | s, [] => some s
  | s, e :: es => (step P need objs g s e).bind fun s' => runEvs P need objs g s' es

theorem runEvs_append (need : Nat → Option Bool) (objs : List Nat) (g : Solver.Graph) :
    ∀ (a b : List (Ev α)) (s : St α),
    runEvs P need objs g s (a ++ b) = (runEvs P need objs g s a).bind (fun s' => runEvs P need objs g s' b) := by
  intro a
  induction a with
  | nil => intro b s; rfl
  | cons e es ih =>
    intro b s
    simp only [List.cons_append, runEvs]
    cases step P need objs g s e with
    | none => rfl
    | some s' => simp [ih]

theorem run_iff {need : Nat → Option Bool} {objs : List Nat} {g : Solver.Graph} {s0 s : St α}
    {tr : List (Ev α)} : Run P need objs g s0 tr s ↔ runEvs P need objs g s0 tr = some s := by
  constructor
  · intro h
    induction h with
    | nil => rfl
    | snoc _ hst ih => rw [runEvs_append, ih]; simp [runEvs, hst]
  · revert s
    induction tr using List.reverseRecOn with
    | nil => intro s h; cases h; exact .nil
    | append_singleton tr e ih =>
      intro s h
      rw [runEvs_append] at h
      cases h1 : runEvs P need objs g s0 tr with
      | none => rw [h1] at h; cases h
      | some s1 =>
        rw [h1] at h
        simp only [Option.bind_some, runEvs] at h
        refine .snoc (ih h1) ?_
        cases hst : step P need objs g s1 e with
        | none => rw [hst] at h; cases h
        | some s2 => rw [hst] at h; exact h

/-- an invocation from computed parts -/
def Invocation.of {lim lim' n : Nat} {m' : Marks} {objs : List Nat} {ds : List Solver.DTarget}
    {g : Solver.Graph} {cache1 : FileCache} (l : List Nat)
    (h0 : ∀ o, o ∈ l ↔ Registered P.reg o ∧ (P.reg.obj o).upd = true)
    (h0' : evalCache P canon fs0 lim l cache0 = .ok cache1)
    (h1 : updateNeeds canon P.reg (updIf P canon fs0 cache0 lim) lim' noMarks = .ok m')
    (h2 : recurseUpdate canon P.reg id Solver.idOrder lim [] none root (some (n : Int)) = .ok (objs, ds, g, n)) :
    Invocation P canon root fs0 cache0 where
  need := m'.need
  objs := objs
  ds := ds
  g := g
  n := n
  cache1 := cache1
  evaluated := ⟨lim, lim', noMarks, m', coherent_noMarks, h1, rfl⟩
  cached := ⟨lim, l, h0, h0'⟩
  prepared := ⟨id, Solver.idOrder, lim, [], none, some (n : Int), fun _ => .refl _, Solver.idOrder_isOrder,
    fun _ _ => rfl, h2⟩

def faithfulB [DecidableEq α] (P : Proj α) (need : Nat → Option Bool) (objs : List Nat) (g : Solver.Graph) :
    St α → List (Ev α) → Bool
  | _, [] => true
  | s, e :: es =>
    (match e with
      | .write i v => (objs[i]?).all (fun o => decide (v = P.cmd o (contents s.fs)))
      | _ => true) &&
    (step P need objs g s e).all (fun s' => faithfulB P need objs g s' es)

theorem faithful_of [DecidableEq α] {B : Invocation P canon root fs0 cache0} {clock : Nat} {tr : List (Ev α)}
    (h : faithfulB P B.need B.objs B.g (B.start clock) tr = true) : Faithful B clock tr := by
  intro pre post i v o s htr ho hx
  have hr := run_iff.1 hx
  subst htr
  generalize B.start clock = s0 at *
  clear hx
  induction pre generalizing s0 with
  | nil =>
    simp only [runEvs, Option.some.injEq] at hr
    subst hr
    simp only [List.nil_append, faithfulB, ho, Option.all_some, Bool.and_eq_true, decide_eq_true_eq] at h
    exact h.1
  | cons e es ih =>
    simp only [runEvs] at hr
    simp only [List.cons_append, faithfulB, Bool.and_eq_true] at h
    cases hst : step P B.need B.objs B.g s0 e with
    | none => rw [hst] at hr; cases hr
    | some s1 =>
      rw [hst] at hr h
      exact ih s1 hr (by simpa using h.2)

def productiveB (objs : List Nat) (commands : List Nat) (tr : List (Ev α)) : Bool :=
  tr.all fun
    | .sched (.finish _ i .ok) => (objs[i]?).all (fun o => decide (o ∉ commands) ||
        tr.any (fun | .write j _ => decide (j = i) | _ => false))
    | _ => true

theorem productive_of {B : Invocation P canon root fs0 cache0} {tr : List (Ev α)}
    (h : productiveB B.objs (B.commands tr) tr = true) : Productive B tr := by
  intro w i o hm hi hc
  unfold productiveB at h
  rw [List.all_eq_true] at h
  have := h _ hm
  simp only [hi, Option.all_some, hc, not_true_eq_false, decide_false, Bool.false_or, List.any_eq_true] at this
  obtain ⟨e, he, h2⟩ := this
  cases e with
  | write j v => simp only [decide_eq_true_eq] at h2; subst h2; exact ⟨v, he⟩
  | sched e => cases h2
  | tick => cases h2

end Tools

/-! ### the demo project -/

theorem demo_reg_iff {o : Nat} : Registered demo.reg o ↔ o < 5 := by
  constructor
  · rintro ⟨n, hn⟩
    have := Dict.mem_of_get hn
    simp only [demo, List.mem_cons, Prod.mk.injEq, List.not_mem_nil, or_false] at this
    omega
  · intro h
    have : o = 0 ∨ o = 1 ∨ o = 2 ∨ o = 3 ∨ o = 4 := by omega
    rcases this with rfl | rfl | rfl | rfl | rfl
    · exact ⟨"a.c", rfl⟩
    · exact ⟨"d", rfl⟩
    · exact ⟨"d/a.o", rfl⟩
    · exact ⟨"d/app", rfl⟩
    · exact ⟨"all", rfl⟩

theorem demo_resolves {d : String} {o : Nat} (h : Resolves id demo.reg d o) : demo.path o = d ∧ o < 5 := by
  rcases h with h | ⟨h1, h⟩ <;>
  · have := Dict.mem_of_get h
    simp only [demo, List.mem_cons, Prod.mk.injEq, List.not_mem_nil, or_false, id] at this
    rcases this with ⟨rfl, rfl⟩ | ⟨rfl, rfl⟩ | ⟨rfl, rfl⟩ | ⟨rfl, rfl⟩ | ⟨rfl, rfl⟩ <;>
    exact ⟨rfl, by decide⟩

theorem demo_dep {o o' : Nat} : ObjDep id demo.reg o o' ↔
    (o, o') ∈ [(2, 0), (2, 1), (3, 2), (3, 1), (4, 3)] := by
  constructor
  · rintro ⟨d, hd, hr⟩
    obtain ⟨hp, hlt⟩ := demo_resolves hr
    have ho' : o' = 0 ∨ o' = 1 ∨ o' = 2 ∨ o' = 3 ∨ o' = 4 := by omega
    have ho : o = 0 ∨ o = 1 ∨ o = 2 ∨ o = 3 ∨ o = 4 ∨ 4 < o := by omega
    rcases ho with rfl | rfl | rfl | rfl | rfl | ho
    · simp [demo] at hd
    · simp [demo] at hd
    · rcases ho' with rfl | rfl | rfl | rfl | rfl <;> subst hp <;> revert hd <;> decide
    · rcases ho' with rfl | rfl | rfl | rfl | rfl <;> subst hp <;> revert hd <;> decide
    · rcases ho' with rfl | rfl | rfl | rfl | rfl <;> subst hp <;> revert hd <;> decide
    · obtain ⟨k, rfl⟩ : ∃ k, o = k + 5 := ⟨o - 5, by omega⟩
      simp [demo] at hd
  · intro h
    simp only [List.mem_cons, Prod.mk.injEq, List.not_mem_nil, or_false] at h
    rcases h with ⟨rfl, rfl⟩ | ⟨rfl, rfl⟩ | ⟨rfl, rfl⟩ | ⟨rfl, rfl⟩ | ⟨rfl, rfl⟩
    · exact ⟨"a.c", by decide, Or.inl rfl⟩
    · exact ⟨"d", by decide, Or.inl rfl⟩
    · exact ⟨"d/a.o", by decide, Or.inl rfl⟩
    · exact ⟨"d", by decide, Or.inl rfl⟩
    · exact ⟨"d/app", by decide, Or.inl rfl⟩

theorem demo_dep_lt {o o' : Nat} (h : ObjDep id demo.reg o o') : o' < o := by
  rw [demo_dep] at h
  simp only [List.mem_cons, Prod.mk.injEq, List.not_mem_nil, or_false] at h
  omega

theorem demo_trans_lt {o o' : Nat} (h : TransGen (ObjDep id demo.reg) o o') : o' < o := by
  induction h with
  | single h => exact demo_dep_lt h
  | tail _ h ih => exact lt_trans (demo_dep_lt h) ih

theorem demo_sound : Sound demo id where
  nodup := by decide
  consistent := by
    intro n o h
    obtain ⟨h1, h2⟩ := demo_resolves (Or.inl h)
    have : o = 0 ∨ o = 1 ∨ o = 2 ∨ o = 3 ∨ o = 4 := by omega
    rcases this with rfl | rfl | rfl | rfl | rfl <;> rfl
  acyclic := fun o h => lt_irrefl _ (demo_trans_lt h)
  upd := by
    intro o ho _
    have := demo_reg_iff.1 ho
    have : o = 0 ∨ o = 1 ∨ o = 2 ∨ o = 3 ∨ o = 4 := by omega
    rcases this with rfl | rfl | rfl | rfl | rfl <;> rfl
  srcDeps := by
    intro o o' hk h
    rw [demo_dep] at h
    simp only [List.mem_cons, Prod.mk.injEq, List.not_mem_nil, or_false] at h
    rcases h with ⟨rfl, rfl⟩ | ⟨rfl, rfl⟩ | ⟨rfl, rfl⟩ | ⟨rfl, rfl⟩ | ⟨rfl, rfl⟩ <;>
      rcases hk with hk | hk <;> cases hk
  fileDeps := by
    intro o o' _ h
    rw [demo_dep] at h
    simp only [List.mem_cons, Prod.mk.injEq, List.not_mem_nil, or_false] at h
    rcases h with ⟨rfl, rfl⟩ | ⟨rfl, rfl⟩ | ⟨rfl, rfl⟩ | ⟨rfl, rfl⟩ | ⟨rfl, rfl⟩ <;> decide
  ancestors := by intro b a _ _ _ h; cases h

theorem demo_functional : Functional demo id := by
  intro o f f' h
  have key : ∀ o o', ObjDep id demo.reg o o' → demo.kind o' = .file ∨ demo.kind o' = .source →
      (∀ o', InputOf demo id o o' → f (demo.path o') = f' (demo.path o')) →
      f (demo.path o') = f' (demo.path o') := fun o o' h1 h2 h3 => h3 o' (.direct h1 h2)
  show (if o = 2 then (f "a.c").getD 0 + 10 else if o = 3 then (f "d/a.o").getD 0 + 100 else 0) =
    (if o = 2 then (f' "a.c").getD 0 + 10 else if o = 3 then (f' "d/a.o").getD 0 + 100 else 0)
  by_cases h2 : o = 2
  · subst h2
    have : f "a.c" = f' "a.c" := key 2 0 (demo_dep.2 (by decide)) (Or.inr rfl) h
    simp [this]
  · by_cases h3 : o = 3
    · subst h3
      have : f "d/a.o" = f' "d/a.o" := key 3 2 (demo_dep.2 (by decide)) (Or.inl rfl) h
      simp [this]
    · simp [h2, h3]

/-! ### builds of the demo project -/

theorem demo_all : ∀ o, o ∈ [0, 1, 2, 3, 4] ↔ Registered demo.reg o ∧ (demo.reg.obj o).upd = true := by
  intro o
  constructor
  · intro h
    have h5 : o < 5 := by simp only [List.mem_cons, List.not_mem_nil, or_false] at h; omega
    refine ⟨demo_reg_iff.2 h5, ?_⟩
    have : o = 0 ∨ o = 1 ∨ o = 2 ∨ o = 3 ∨ o = 4 := by omega
    rcases this with rfl | rfl | rfl | rfl | rfl <;> rfl
  · rintro ⟨h, _⟩
    have := demo_reg_iff.1 h
    simp only [List.mem_cons, List.not_mem_nil, or_false]
    omega

/-- Non-vacuity of C32: the staleness test on an up-to-date and on an outdated file. -/
example : ∃ c c', internalUpdateIf demo id demoFs 10 2 [] = .ok (true, c) ∧
    internalUpdateIf demo id (fun p => if p = "a.c" then some ⟨3, some 0⟩ else if p = "d/a.o" then
      some ⟨3, some 10⟩ else none) 10 2 [] = .ok (false, c') := ⟨_, _, rfl, rfl⟩

/-- the first build: one worker; numbers 0: `a.c`, 1: `all`, 2: `d`, 3: `d/a.o`, 4: `d/app` -/
def demoTr : List (Ev Nat) :=
  [.sched (.start 0 0), .sched (.finish 0 0 .ok), .sched (.start 0 2), .sched (.finish 0 2 .ok),
   .sched (.start 0 3), .tick, .write 3 15, .sched (.finish 0 3 .ok),
   .sched (.start 0 4), .write 4 115, .tick, .sched (.finish 0 4 .ok),
   .sched (.start 0 1), .sched (.finish 0 1 .ok)]

def demoB : Invocation demo id 4 demoFs [] := .of (lim := 10) (lim' := 10) (n := 1) _ demo_all rfl rfl rfl

/-- the first build -/
theorem demo_build : ∃ s, demoB.Run 7 demoTr s ∧ s.Succeeded ∧ Faithful demoB 7 demoTr ∧
    Productive demoB demoTr ∧ contents s.fs "d/app" = some 115 ∧ demoB.commands demoTr = [2, 3] :=
  ⟨_, run_iff.2 rfl, ⟨rfl, rfl⟩, faithful_of (by decide +kernel), productive_of (by decide +kernel),
    by decide +kernel, by decide +kernel⟩

theorem demo_old : ∀ p e, demoFs p = some e → e.mtime < 7 := by
  intro p e h
  unfold demoFs at h
  split at h <;> cases h
  decide

theorem demo_clean_closure {o : Nat} (h : Closure id demo.reg 4 o) : o < 5 :=
  demo_reg_iff.1 (closure_registered (demo_reg_iff.2 (by decide)) h)

theorem demo_sources : ∀ o, Closure id demo.reg 4 o → demo.kind o = .source →
    (demoFs (demo.path o)).isSome := by
  intro o h hk
  have := demo_clean_closure h
  have : o = 0 ∨ o = 1 ∨ o = 2 ∨ o = 3 ∨ o = 4 := by omega
  rcases this with rfl | rfl | rfl | rfl | rfl
  · rfl
  all_goals cases hk

/-- the state after the first build -/
def demoS : St Nat := (runEvs demo demoB.need demoB.objs demoB.g (demoB.start 7) demoTr).getD (demoB.start 7)

theorem demoS_run : demoB.Run 7 demoTr demoS := run_iff.2 rfl

/-- a second build -/
def demoB2 : Invocation demo id 4 demoS.fs [] := .of (lim := 10) (lim' := 10) (n := 1) _ demo_all rfl rfl rfl

def demoTr2 : List (Ev Nat) :=
  [.sched (.start 0 0), .sched (.finish 0 0 .ok), .sched (.start 0 2), .sched (.finish 0 2 .ok),
   .sched (.start 0 3), .sched (.finish 0 3 .ok), .sched (.start 0 4), .sched (.finish 0 4 .ok),
   .sched (.start 0 1), .sched (.finish 0 1 .ok)]

/-- the source is edited at time 20 -/
def demoFs3 : FS Nat := setFile demoS.fs (demo.path 0) ⟨20, some 6⟩

/-- a build after the edit -/
def demoB3 : Invocation demo id 4 demoFs3 [] := .of (lim := 10) (lim' := 10) (n := 1) _ demo_all rfl rfl rfl

def demoTr3 : List (Ev Nat) :=
  [.sched (.start 0 0), .sched (.finish 0 0 .ok), .sched (.start 0 2), .sched (.finish 0 2 .ok),
   .sched (.start 0 3), .write 3 16, .sched (.finish 0 3 .ok),
   .sched (.start 0 4), .write 4 116, .sched (.finish 0 4 .ok),
   .sched (.start 0 1), .sched (.finish 0 1 .ok)]

/-- the command of `d/a.o` writes garbage and fails -/
def demoTrGarbage : List (Ev Nat) :=
  [.sched (.start 0 0), .sched (.finish 0 0 .ok), .sched (.start 0 2), .sched (.finish 0 2 .ok),
   .sched (.start 0 3), .write 3 99, .sched (.finish 0 3 .fail)]

def demoSG : St Nat :=
  (runEvs demo demoB.need demoB.objs demoB.g (demoB.start 7) demoTrGarbage).getD (demoB.start 7)

def demoBG : Invocation demo id 4 demoSG.fs [] := .of (lim := 10) (lim' := 10) (n := 1) _ demo_all rfl rfl rfl

end Licant.Make
