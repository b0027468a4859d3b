/-
From the command line to the files: `cliexecute` for a project of licant/make.py.  C121.
-/
import Verif.Misc.Jobs
import Verif.Make.Props

set_option autoImplicit false

namespace Licant.Misc
open Licant.Py Licant.Core Relation
open Licant.Make (Proj FS FileCache Invocation Sound Accurate Fresh InputOf OutOfDate NeedsWork Productive IsPath Kind view
  fileinfo updIf evalCache internalUpdateIf sched)

variable {α : Type}

/-! ### model -/

/-- A process of licant with a project of make.py: the state of `RunSt`, the marks of the target objects, and the file system
and file cache (cache.py). -/
structure Proc (α : Type) where
  run : RunSt
  marks : Marks
  fs : FS α
  files : FileCache

/-- the project with the present core: registering aliases (core.py:88-92) changes it -/
abbrev withReg (P : Proj α) (c : Reg) : Proj α := { P with reg := c }

/-- core.py:52-54 for a project of make.py: the needs, and the file cache afterwards.  Simplification: the answers are asked for
with the file cache at the beginning, and each updatable target is asked once (see `Make.updIf` and `Invocation.cached`: the
answers are the same). -/
def procEval (P : Proj α) (canon : String → String) (lim : Nat) (s : Proc α) : Except Err (Proc α) := do
  let c := s.run.core
  let m ← updateNeeds canon c (updIf (withReg P c) canon s.fs s.files lim) lim s.marks
  let f ← evalCache (withReg P c) canon s.fs lim ((c.targets.map (·.2)).filter fun o => (c.obj o).upd) s.files
  .ok { s with marks := m, files := f }

/-- make.py:99-100: `makefile` is `recurse_update`; the other actions as in `buildAct` -/
def procAct (canon : String → String) (setOrder : List Nat → List Nat) (order : Nat → List Nat → List Nat) (lim : Nat)
    (other : Call → RunSt → Except Err RunSt) (k : Call) (s : Proc α) : Except Err (Proc α × Unit) := do
  let k' : Call := if k.action = "makefile" then { k with action := "recurse_update" } else k
  let r ← buildAct canon setOrder order lim other k' s.run
  .ok ({ s with run := r.1 }, ())

/-- The program.  What is a routine, the declared actions and attributes, and all other actions are arbitrary. -/
def procProg (P : Proj α) (canon : String → String) (setOrder : List Nat → List Nat) (order : Nat → List Nat → List Nat) (lim : Nat)
    (routine : Nat → Bool) (actions : Nat → List String) (hasattr : Nat → String → Bool)
    (other : Call → RunSt → Except Err RunSt) : Prog (Proc α) Unit where
  canon := canon
  core s := s.run.core
  setCore s c := { s with run := { s.run with core := c } }
  routine := routine
  actions := actions
  eval := procEval P canon lim
  hasattr := hasattr
  act := procAct canon setOrder order lim other

/-- `core.runtime["threads"] = t` (cli.py:146) -/
def Proc.setThreads (s : Proc α) (t : Option Int) : Proc α := { s with run := s.run.setThreads t }

/-! ### specification -/

/-- A process with the project `P` that has not begun to build: what it believes about its files is true. -/
structure Ready (P : Proj α) (canon : String → String) (s : Proc α) : Prop where
  core : s.run.core = P.reg
  cache : ∀ t b, s.run.cache.get (.pair t b) = none
  marks : Coherent canon P.reg s.marks.cached
  files : Accurate P s.fs s.files

/-- a process that has just described the project `P` -/
structure New (P : Proj α) (s : Proc α) : Prop where
  core : s.run.core = P.reg
  cache : s.run.cache = []
  marks : s.marks = noMarks
  files : s.files = []

/-- the actions that build a target -/
def buildActions : List String := ["makefile", "recurse_update", "recurse_update_get_args"]

/-! ### an alias changes nothing -/

variable {P : Proj α} {canon : String → String}

theorem objDep_same {c c' : Reg} (h : SameMeaning canon c c') : ObjDep canon c' = ObjDep canon c := by
  funext o o'
  unfold ObjDep
  rw [h.1]
  exact propext ⟨fun ⟨d, h1, h2⟩ => ⟨d, h1, (h.2 _ _).1 h2⟩, fun ⟨d, h1, h2⟩ => ⟨d, h1, (h.2 _ _).2 h2⟩⟩

theorem registered_same {c c' : Reg} (h : SameMeaning canon c c') (o : Nat) : Registered c' o ↔ Registered c o := by
  constructor
  · rintro ⟨n, hn⟩
    exact Resolves.registered ((h.2 n o).1 (Or.inl hn))
  · rintro ⟨n, hn⟩
    exact Resolves.registered ((h.2 n o).2 (Or.inl hn))

theorem inputOf_same {c : Reg} (h : SameMeaning canon P.reg c) {o o' : Nat} :
    InputOf (withReg P c) canon o o' ↔ InputOf P canon o o' := by
  have hd : ∀ a b, ObjDep canon c a b ↔ ObjDep canon P.reg a b := fun a b => by rw [objDep_same h]
  constructor
  · intro hi
    induction hi with
    | direct h1 h2 => exact .direct ((hd _ _).1 h1) h2
    | through h1 h2 _ ih => exact .through ((hd _ _).1 h1) h2 ih
  · intro hi
    induction hi with
    | direct h1 h2 => exact .direct ((hd _ _).2 h1) h2
    | through h1 h2 _ ih => exact .through ((hd _ _).2 h1) h2 ih

theorem path_same {c : Reg} (h : SameMeaning canon P.reg c) (o : Nat) : (withReg P c).path o = P.path o := by
  unfold Proj.path
  rw [h.1]

theorem closure_same {c : Reg} (h : SameMeaning canon P.reg c) (a : Nat) :
    Closure canon (withReg P c).reg a = Closure canon P.reg a := by
  unfold Closure
  rw [objDep_same h]

theorem fresh_same {c : Reg} (h : SameMeaning canon P.reg c) {fs : FS α} {o : Nat} :
    Fresh (withReg P c) canon fs o ↔ Fresh P canon fs o := by
  unfold Fresh
  simp only [path_same h, inputOf_same h]

theorem outOfDate_same {c : Reg} (h : SameMeaning canon P.reg c) {V : String → Make.Info} {o : Nat} :
    OutOfDate (withReg P c) canon V o ↔ OutOfDate P canon V o := by
  unfold OutOfDate
  simp only [path_same h, inputOf_same h]

theorem needsWork_same {c : Reg} (h : SameMeaning canon P.reg c) {V : String → Make.Info} {o : Nat} :
    NeedsWork (withReg P c) canon V o ↔ NeedsWork P canon V o := by
  unfold NeedsWork
  simp only [closure_same h, outOfDate_same h]

/-- the core after a lookup by `has` -/
def Looked (canon : String → String) (c c' : Reg) : Prop := c' = c ∨ ∃ n, c' = (Core.has canon c n).1

theorem Looked.same (hc : Idempotent canon) {c c' : Reg} (h : Looked canon c c') : SameMeaning canon c c' := by
  rcases h with rfl | ⟨n, rfl⟩
  · exact same_refl _ _
  · exact has_same hc _ _

theorem Looked.sound (hc : Idempotent canon) {c : Reg} (h : Looked canon P.reg c) (hS : Sound P canon) :
    Sound (withReg P c) canon := by
  have hs := h.same hc
  refine ⟨?_, ?_, ?_, ?_, ?_, ?_, ?_⟩
  · rcases h with rfl | ⟨n, rfl⟩
    · exact hS.nodup
    · show (Core.has canon P.reg n).1.targets.keys.Nodup
      unfold Core.has
      split
      · exact hS.nodup
      · split
        · exact Dict.nodup_keys_set hS.nodup _ _
        · exact hS.nodup
  · rcases h with rfl | ⟨n, rfl⟩
    · exact hS.consistent
    · show Consistent (Core.has canon P.reg n).1
      unfold Core.has
      split
      · exact hS.consistent
      · rename_i hn
        split
        · rename_i o ho
          intro m o' hm
          dsimp only at hm ⊢
          have hne : ∀ x, P.reg.targets.get (P.reg.obj x).tgt = some x → (P.reg.obj x).tgt ≠ n := by
            intro x hx e
            rw [e] at hx
            exact hn (by simp [Dict.has, hx])
          by_cases e : m = n
          · subst e
            rw [Dict.get_set_self] at hm
            cases hm
            have := hS.consistent _ _ ho
            rw [Dict.get_set_ne _ _ (hne _ this).symm]
            exact this
          · rw [Dict.get_set_ne _ _ (Ne.symm e)] at hm
            have := hS.consistent _ _ hm
            rw [Dict.get_set_ne _ _ (hne _ this).symm]
            exact this
        · exact hS.consistent
  · unfold Acyclic
    rw [objDep_same hs]
    exact hS.acyclic
  · intro o ho hk
    have := hS.upd o ((registered_same hs o).1 ho) hk
    rw [← hs.1] at this
    exact this
  · intro o o' hk hd
    rw [objDep_same hs] at hd
    exact hS.srcDeps o o' hk hd
  · intro o o' hk hd
    rw [objDep_same hs] at hd
    exact hS.fileDeps o o' hk hd
  · intro b a hb hkb ha hp
    rw [path_same hs, path_same hs] at hp
    rcases hS.ancestors b a ((registered_same hs b).1 hb) hkb ((registered_same hs a).1 ha) hp with h | h | ⟨h1, h2⟩
    · exact Or.inl h
    · exact Or.inr (Or.inl h)
    · refine Or.inr (Or.inr ⟨h1, ?_⟩)
      rw [objDep_same hs]
      exact h2

/-! ### a build can only stop by returning -/

/-- the work of every target can end in some way -/
theorem finish_possible (P : Proj α) (need : Nat → Option Bool) (s : Make.St α) (o : Nat) :
    ∃ r p, Make.finishEffect P need s o r = some p := by
  unfold Make.finishEffect
  cases hk : P.kind o with
  | dir =>
    dsimp only
    by_cases he : (Make.getInfo s.fs s.cache (P.path o)).1.exist = true
    · exact ⟨.ok, _, by rw [if_pos he, if_pos rfl]⟩
    · refine ⟨.raise, (s.fs, (Make.getInfo s.fs s.cache (P.path o)).2), ?_⟩
      rw [if_neg he]
      cases s.fs (P.path o) <;> rfl
  | file =>
    dsimp only
    cases hw : Core.work P.reg need o with
    | raises => exact ⟨.raise, _, if_pos rfl⟩
    | skips => exact ⟨.ok, _, if_pos rfl⟩
    | calls => exact ⟨.raise, _, if_pos rfl⟩
  | source =>
    dsimp only
    cases hw : Core.work P.reg need o with
    | raises => exact ⟨.raise, _, if_pos rfl⟩
    | skips => exact ⟨.ok, _, if_pos rfl⟩
    | calls => exact ⟨.ok, _, if_pos rfl⟩
  | fileset =>
    dsimp only
    cases hw : Core.work P.reg need o with
    | raises => exact ⟨.raise, _, if_pos rfl⟩
    | skips => exact ⟨.ok, _, if_pos rfl⟩
    | calls => exact ⟨.ok, _, if_pos rfl⟩
  | other =>
    dsimp only
    cases hw : Core.work P.reg need o with
    | raises => exact ⟨.raise, _, if_pos rfl⟩
    | skips => exact ⟨.ok, _, if_pos rfl⟩
    | calls => exact ⟨.ok, _, rfl⟩

theorem solver_running {g : Solver.Graph} {s s' : Solver.St} {w t : Nat} {r : Solver.Ret}
    (h : Solver.step g s (.finish w t r) = some s') : s.ws[w]? = some (.run t) ∧ s.unfinished ≠ 0 := by
  by_contra hc
  simp only [Solver.step] at h
  rw [if_neg hc] at h
  cases h

theorem solver_finish_any {g : Solver.Graph} {s s' : Solver.St} {w t : Nat} {r : Solver.Ret}
    (h : Solver.step g s (.finish w t r) = some s') (r' : Solver.Ret) : ∃ s'', Solver.step g s (.finish w t r') = some s'' := by
  simp only [Solver.step]
  rw [if_pos (solver_running h)]
  cases r' with
  | raise => exact ⟨_, rfl⟩
  | ok => dsimp only; split <;> (try split) <;> (try split) <;> (try split) <;> exact ⟨_, rfl⟩
  | fail => dsimp only; split <;> (try split) <;> (try split) <;> (try split) <;> exact ⟨_, rfl⟩

/-- if no event of the solver can happen in the build, none can happen in the solver -/
theorem solver_stuck {root : Nat} {fs : FS α} {cache : FileCache} {B : Invocation P canon root fs cache} (hS : Sound P canon)
    (hroot : Registered P.reg root) {clock : Nat} {tr : List (Make.Ev α)} {s : Make.St α} (hx : B.Run clock tr s)
    (h : ∀ e, Make.step P B.need B.objs B.g s (.sched e) = none) : ∀ e, Solver.step B.g s.sol e = none := by
  intro e
  cases he : Solver.step B.g s.sol e with
  | none => rfl
  | some s' =>
    exfalso
    cases e with
    | finish w i r =>
      obtain ⟨dep, I, _⟩ := B.inv hS hroot hx
      have hi : ∃ o, B.objs[i]? = some o := by
        have hw : s.sol.ws[w]? = some (.run i) := (solver_running he).1
        have hlt := I.startedLt i (I.runs w i hw).1
        obtain ⟨Pr, order, lim, ho, hg⟩ := B.prep hS hroot
        have hsz : B.g.size = B.objs.length := (Solver.accepted ho hg).2.2.2.1.trans Pr.len
        exact ⟨_, List.getElem?_eq_getElem (hsz ▸ hlt)⟩
      obtain ⟨o, ho⟩ := hi
      obtain ⟨r', p, hp⟩ := finish_possible P B.need s o
      obtain ⟨s'', hs⟩ := solver_finish_any he r'
      have := h (.finish w i r')
      simp only [Make.step, hs, ho, hp] at this
      cases this
    | start w t => have := h (.start w t); simp only [Make.step, he] at this; cases this
    | abandon w t => have := h (.abandon w t); simp only [Make.step, he] at this; cases this
    | drain w => have := h (.drain w); simp only [Make.step, he] at this; cases this

/-! ### C121 -/

variable {setOrder : List Nat → List Nat} {order : Nat → List Nat → List Nat} {lim : Nat} {routine : Nat → Bool}
  {actions : Nat → List String} {hasattr : Nat → String → Bool} {other : Call → RunSt → Except Err RunSt}

/-- **C121**: a command line that asks for a build of a target is a build of that target (`Invocation`), with the number of workers it
asks for.  Everything the target depends on takes part, at most that many targets are made at a time, the build can only stop by
returning (unless a work function raised), and if it succeeds then every file that is used for the target exists and is not older than the files it is made
from. -/
theorem C121_build (hc : Idempotent canon) (hso : ∀ l, (setOrder l).Perm l) (ho : Solver.IsOrder order) (hS : Sound P canon)
    {s s' : Proc α} (hr : Ready P canon s) {cpu : Option Nat} {opt : String} {z : Int} (hz : Wants cpu opt z)
    {default : Option String} {args : List String} {k : Call}
    (hk : Asks (procProg P canon setOrder order lim routine actions hasattr other) P.reg default args k) (hargs : k.args = [])
    (hact : k.action ∈ buildActions) (hkind : P.kind k.obj ≠ .other)
    (h : (procProg P canon setOrder order lim routine actions hasattr other).cliJobs Proc.setThreads cpu opt default args s =
      .ok s') :
    ∃ (c : Reg) (B : Invocation (withReg P c) canon k.obj s.fs s.files), Looked canon P.reg c ∧
      s'.run.started = s.run.started ++ [(B.objs, B.ds, B.g, B.n)] ∧ s'.marks.need = B.need ∧ s'.files = B.cache1 ∧ s'.fs = s.fs ∧
      B.n = z.toNat ∧ (∀ o, o ∈ B.objs ↔ Closure canon P.reg k.obj o) ∧
      ∀ clock tr st, B.Run clock tr st →
        (∀ (pre post : List Solver.Ev) (l : List Nat), sched tr = pre ++ post → l.Nodup → (∀ t ∈ l, Solver.Running pre t) →
          l.length ≤ z.toNat) ∧
        (0 < z → (∀ w t, Solver.Ev.finish w t .raise ∉ sched tr) →
          (∀ e, Make.step (withReg P c) B.need B.objs B.g st (.sched e) = none) → st.sol.returned) ∧
        ((∀ p e, s.fs p = some e → e.mtime ≤ clock) → Productive B tr → st.Succeeded →
          ∀ o, Closure canon P.reg k.obj o → P.kind o = .file → Fresh P canon st.fs o) := by
  have hj : jobs cpu opt = .ok (some z) := by
    rcases hz with hz | ⟨rfl, n, rfl, rfl⟩
    · exact jobs_number hz
    · rfl
  unfold Prog.cliJobs at h
  rw [hj] at h
  dsimp only at h
  have hk' : Asks (procProg P canon setOrder order lim routine actions hasattr other)
      ((procProg P canon setOrder order lim routine actions hasattr other).core (s.setThreads (some z))) default args k := by
    have : (procProg P canon setOrder order lim routine actions hasattr other).core (s.setThreads (some z)) = P.reg := hr.core
    rw [this]; exact hk
  obtain ⟨s1, h1, h2, h3⟩ := (C62_dispatch _ hc (fun _ _ => rfl) default args (s.setThreads (some z))).1 k hk' (Or.inl hargs)
  unfold Prog.cliexecute at h
  rw [h3] at h
  have hs1 : s1.run.cache = s.run.cache ∧ s1.run.threads = some (some z) ∧ s1.run.started = s.run.started ∧ s1.fs = s.fs ∧
      s1.files = s.files ∧ s1.marks = s.marks ∧ Looked canon P.reg s1.run.core := by
    rcases h2 with rfl | ⟨n, rfl⟩
    · exact ⟨rfl, rfl, rfl, rfl, rfl, rfl, Or.inl hr.core⟩
    · refine ⟨rfl, rfl, rfl, rfl, rfl, rfl, Or.inr ⟨n, ?_⟩⟩
      rw [← hr.core]
      rfl
  obtain ⟨e1, e2, e3, e4, e5, e6, hl⟩ := hs1
  have hsame := hl.same hc
  have hS' := hl.sound hc hS
  have hreg : Registered P.reg k.obj := by
    cases hk with
    | nothing _ hr => exact hr.registered
    | target hr => exact hr.registered
    | routine hr _ => exact hr.registered
    | action hr _ _ => exact hr.registered
    | defaultAction _ _ hr _ => exact hr.registered
  have hreg' : Registered (withReg P s1.run.core).reg k.obj := (registered_same hsame _).2 hreg
  unfold Prog.invoke at h
  simp only [bind, Except.bind] at h
  have hev : (procProg P canon setOrder order lim routine actions hasattr other).eval s1 = procEval P canon lim s1 := rfl
  rw [hev] at h
  unfold procEval at h
  simp only [bind, Except.bind] at h
  cases hm : updateNeeds canon s1.run.core (updIf (withReg P s1.run.core) canon s1.fs s1.files lim) lim s1.marks with
  | error e => rw [hm] at h; cases h
  | ok m =>
    rw [hm] at h
    dsimp only at h
    cases hf : evalCache (withReg P s1.run.core) canon s1.fs lim
        ((s1.run.core.targets.map (·.2)).filter fun o => (s1.run.core.obj o).upd) s1.files with
    | error e => rw [hf] at h; cases h
    | ok f =>
      rw [hf] at h
      dsimp only at h
      by_cases hh : (procProg P canon setOrder order lim routine actions hasattr other).hasattr k.obj k.action = true
      · rw [if_pos hh] at h
        cases hp : (procProg P canon setOrder order lim routine actions hasattr other).act k { s1 with marks := m, files := f } with
        | error e => rw [hp] at h; cases h
        | ok p =>
          obtain ⟨s3, u⟩ := p
          rw [hp] at h
          have h : s3 = s' := by cases h; rfl
          subst h
          have hpa : procAct canon setOrder order lim other k { s1 with marks := m, files := f } = .ok (s3, ()) := hp
          unfold procAct at hpa
          simp only [bind, Except.bind] at hpa
          cases hb : buildAct canon setOrder order lim other
              (if k.action = "makefile" then { k with action := "recurse_update" } else k) s1.run with
          | error e => rw [hb] at hpa; cases hpa
          | ok q =>
            obtain ⟨r1, u⟩ := q
            rw [hb] at hpa
            cases hpa
            obtain ⟨⟨objs, ds, g, n⟩, h5, h6⟩ := buildAct_started e2 (by
              simp only [buildActions, List.mem_cons, List.not_mem_nil, or_false] at hact ⊢
              rcases hact with e | e | e <;> simp [e]) hb
            have hobj : (if k.action = "makefile" then { k with action := "recurse_update" } else k).obj = k.obj := by
              split <;> rfl
            rw [hobj] at h5
            obtain ⟨cache', h7, h8, w, h9, rfl⟩ := recurseUpdate_ok h5
            cases h9
            have hmarks : Coherent canon (withReg P s1.run.core).reg s1.marks.cached := by
              intro o l hol
              rw [e6] at hol
              have := hr.marks o l hol
              rw [show (withReg P s1.run.core).reg.obj o = P.reg.obj o by rw [show (withReg P s1.run.core).reg.obj = P.reg.obj from hsame.1]]
              exact this.imp fun a b hab => (hsame.2 a b).2 hab
            let B : Invocation (withReg P s1.run.core) canon k.obj s.fs s.files :=
              { need := m.need
                objs := objs
                ds := ds
                g := g
                n := z.toNat
                cache1 := f
                evaluated := ⟨lim, lim, s1.marks, m, hmarks, by rw [← e4, ← e5]; exact hm, rfl⟩
                cached := ⟨lim, _, fun o => by
                  rw [List.mem_filter, ← registered_iff_mem hS'.nodup], by rw [← e4, ← e5]; exact hf⟩
                prepared := ⟨setOrder, order, lim, s1.run.cache, none, some z, hso, ho, by rw [e1]; exact hr.cache, h5⟩ }
            have hPr := B.prep hS' hreg'
            refine ⟨s1.run.core, B, hl, by rw [h6, e3], rfl, rfl, e4, rfl, fun o => ?_, fun clock tr st hx => ⟨?_, ?_, ?_⟩⟩
            · rw [← congrFun (closure_same hsame k.obj) o]
              exact hPr.1.mem o
            · intro pre post l e hnd hrun
              exact Solver.C09_parallelism ho h8 hx.exec pre post e l hnd hrun
            · intro hpos hnr hmax
              exact Solver.C07_maximal_returned ho h8 (show 0 < z.toNat by omega) hx.exec hnr (solver_stuck hS' hreg' hx hmax)
            · intro ht hpr hsu o hcl hko
              rw [← fresh_same hsame]
              rw [← congrFun (closure_same hsame k.obj) o] at hcl
              refine Make.C33_fresh hS' hreg' hkind ?_ ht hx hpr hsu o hcl hko
              intro o' ho' hp'
              rw [path_same hsame]
              exact hr.files o' ((registered_same hsame _).1 ho') hp'
      · rw [if_neg hh] at h; cases h

/-- an alias adds no dependency names -/
theorem allDeps_same {c c' : Reg} (h : SameMeaning canon c c') (hn : c.targets.keys.Nodup) (hn' : c'.targets.keys.Nodup) :
    (allDeps c').length = (allDeps c).length := by
  have hmem : ∀ (c : Reg), c.targets.keys.Nodup → ∀ d, d ∈ allDeps c ↔ ∃ o, Registered c o ∧ d ∈ (c.obj o).deps := by
    intro c hn d
    unfold allDeps
    rw [mem_mkset, List.mem_flatMap]
    constructor
    · rintro ⟨p, hp, hd⟩
      exact ⟨p.2, ⟨p.1, Dict.get_of_mem hn hp⟩, hd⟩
    · rintro ⟨o, ⟨n, hg⟩, hd⟩
      exact ⟨(n, o), Dict.mem_of_get hg, hd⟩
  refine List.Perm.length_eq ((List.perm_ext_iff_of_nodup (nodup_mkset _) (nodup_mkset _)).2 fun d => ?_)
  have h1 := hmem c' hn' d
  have h2 := hmem c hn d
  unfold allDeps at h1 h2
  rw [h1, h2]
  simp only [registered_same h, h.1]

theorem Looked.length {c c' : Reg} (h : Looked canon c c') : c'.targets.length ≤ c.targets.length + 1 := by
  rcases h with rfl | ⟨n, rfl⟩
  · omega
  · unfold Core.has
    split
    · simp
    · split
      · rename_i o _
        have : (c.targets.set n o).keys.length ≤ c.targets.keys.length + 1 := by
          rw [Dict.keys_set]
          split <;> simp
        simpa [Dict.keys] using this
      · simp

theorem evalCache_total {fs : FS α} : ∀ (l : List Nat) (cache : FileCache),
    (∀ o ∈ l, ∀ ca, ∃ r, internalUpdateIf P canon fs lim o ca = .ok r) → ∃ f, evalCache P canon fs lim l cache = .ok f := by
  intro l
  induction l with
  | nil => intro cache _; exact ⟨cache, rfl⟩
  | cons o l ih =>
    intro cache h
    obtain ⟨r, hr⟩ := h o (by simp) cache
    obtain ⟨f, hf⟩ := ih r.2 fun x hx => h x (by simp [hx])
    refine ⟨f, ?_⟩
    unfold evalCache at hf ⊢
    simp only [List.foldlM_cons, bind, Except.bind, hr]
    exact hf

/-- **C121**, the beginning: in a complete project every such command line begins a build, in a new process (recursion limit: more than the
numbers of targets and dependencies).  Other targets must not raise in their `update_if`, and updatable ones must not depend on
plain ones (see C28). -/
theorem C121_starts (hc : Idempotent canon) (hso : ∀ l, (setOrder l).Perm l) (ho : Solver.IsOrder order) (hS : Sound P canon)
    (hfr : FullyRegistered canon P.reg)
    (hupd : ∀ o o', Registered P.reg o → (P.reg.obj o).upd = true → ObjDep canon P.reg o o' → (P.reg.obj o').upd = true)
    (hother : ∀ o, Registered P.reg o → P.kind o = .other → (P.reg.obj o).upd = true → ∃ b, P.upd o = .ok b)
    (hl : (allDeps P.reg).length + 1 < lim) (hl' : P.reg.targets.length < lim)
    {s : Proc α} (hn : New P s) {cpu : Option Nat} {opt : String} {z : Int} (hz : Wants cpu opt z)
    {default : Option String} {args : List String} {k : Call}
    (hk : Asks (procProg P canon setOrder order lim routine actions hasattr other) P.reg default args k) (hargs : k.args = [])
    (hact : k.action ∈ buildActions) (hattr : hasattr k.obj k.action = true) :
    ∃ s', (procProg P canon setOrder order lim routine actions hasattr other).cliJobs Proc.setThreads cpu opt default args s =
      .ok s' := by
  have hj : jobs cpu opt = .ok (some z) := by
    rcases hz with hz | ⟨rfl, n, rfl, rfl⟩
    · exact jobs_number hz
    · rfl
  have hk' : Asks (procProg P canon setOrder order lim routine actions hasattr other)
      ((procProg P canon setOrder order lim routine actions hasattr other).core (s.setThreads (some z))) default args k := by
    have : (procProg P canon setOrder order lim routine actions hasattr other).core (s.setThreads (some z)) = P.reg := hn.core
    rw [this]; exact hk
  obtain ⟨s1, _, h2, h3⟩ := (C62_dispatch _ hc (fun _ _ => rfl) default args (s.setThreads (some z))).1 k hk' (Or.inl hargs)
  have hs1 : s1.run.cache = [] ∧ s1.run.threads = some (some z) ∧ s1.marks = noMarks ∧ Looked canon P.reg s1.run.core := by
    rcases h2 with rfl | ⟨n, rfl⟩
    · exact ⟨hn.cache, rfl, hn.marks, Or.inl hn.core⟩
    · refine ⟨hn.cache, rfl, hn.marks, Or.inr ⟨n, ?_⟩⟩
      rw [← hn.core]
      rfl
  obtain ⟨e1, e2, e3, hlk⟩ := hs1
  have hsame := hlk.same hc
  have hS' := hlk.sound hc hS
  have hlen := hlk.length
  have hobj : s1.run.core.obj = P.reg.obj := hsame.1
  have hreg : Registered P.reg k.obj := by
    cases hk with
    | nothing _ hr => exact hr.registered
    | target hr => exact hr.registered
    | routine hr _ => exact hr.registered
    | action hr _ _ => exact hr.registered
    | defaultAction _ _ hr _ => exact hr.registered
  have hfr' : FullyRegistered canon (withReg P s1.run.core).reg := by
    intro o ho d hd
    obtain ⟨o', h'⟩ := hfr o ((registered_same hsame o).1 ho) d (by rw [← hobj]; exact hd)
    exact ⟨o', (hsame.2 d o').2 h'⟩
  have hans : ∀ o, Registered (withReg P s1.run.core).reg o → ((withReg P s1.run.core).reg.obj o).upd = true → ∀ ca,
      ∃ r, internalUpdateIf (withReg P s1.run.core) canon s1.fs lim o ca = .ok r := by
    intro o ho hu ca
    by_cases hk : P.kind o = .other
    · obtain ⟨b, hb⟩ := hother o ((registered_same hsame o).1 ho) hk (by rw [← hobj]; exact hu)
      refine ⟨(b, ca), ?_⟩
      simp only [internalUpdateIf, hk, hb, bind, Except.bind]
    · exact Make.C32_answers hS' hfr' lim o (show s1.run.core.targets.length ≤ lim by omega) ho hk ca
  obtain ⟨m, hm⟩ := updateNeeds_returns (updIf := updIf (withReg P s1.run.core) canon s1.fs s1.files lim) (lim := lim) (m := s1.marks)
    hS'.nodup (by rw [e3]; exact coherent_noMarks) hfr' (by
      intro o o' h1 h2 h3
      have h3' : ObjDep canon s1.run.core o o' := h3
      rw [objDep_same hsame] at h3'
      show (s1.run.core.obj o').upd = true
      rw [hobj]
      exact hupd o o' ((registered_same hsame o).1 h1) (by rw [← hobj]; exact h2) h3') (by
      intro o h1 h2
      obtain ⟨r, hr⟩ := hans o h1 h2 s1.files
      exact ⟨r.1, by unfold updIf; rw [hr]; rfl⟩)
    (depthBound_of_acyclic hS'.acyclic (show s1.run.core.targets.length ≤ lim by omega))
  obtain ⟨f, hf⟩ := evalCache_total (P := withReg P s1.run.core) (canon := canon) (lim := lim) (fs := s1.fs)
    ((s1.run.core.targets.map (·.2)).filter fun o => (s1.run.core.obj o).upd) s1.files (by
      intro o hm
      rw [List.mem_filter, ← registered_iff_mem hS'.nodup] at hm
      exact hans o hm.1 hm.2)
  have hreg' : Registered s1.run.core k.obj := (registered_same hsame _).2 hreg
  have hall : AllRegistered canon s1.run.core (s1.run.core.obj k.obj).tgt := by
    intro d hd
    induction hd with
    | refl => exact ⟨_, resolves_self hS'.consistent hreg'⟩
    | tail _ h _ =>
      obtain ⟨o, h4, h5⟩ := h
      exact hfr' o h4.registered _ h5
  obtain ⟨objs, ds, g, hru⟩ := accepted_of_consistent (lim := lim) hS'.consistent hso ho hreg' hall (fun o _ => hS'.acyclic o)
    (show (allDeps s1.run.core).length + 1 < lim by rw [allDeps_same hsame hS.nodup hS'.nodup]; exact hl)
    (show s1.run.core.targets.length ≤ lim by omega) (some (some z)) (some z) z rfl
  have hba : ∃ q, procAct canon setOrder order lim other k { s1 with marks := m, files := f } = .ok q := by
    have hru1 : recurseUpdate canon s1.run.core setOrder order lim s1.run.cache (some (some z)) k.obj (some 1) = .ok (objs, ds, g, z.toNat) := by
      rw [e1]; exact hru
    have hru2 : recurseUpdateGetArgs canon s1.run.core setOrder order lim s1.run.cache (some (some z)) k.obj = .ok (objs, ds, g, z.toNat) := by
      rw [e1]; exact hru
    unfold procAct buildAct
    simp only [buildActions, List.mem_cons, List.not_mem_nil, or_false] at hact
    rcases hact with e | e | e <;> simp [e, e2, hru1, hru2, bind, Except.bind]
  obtain ⟨q, hq⟩ := hba
  refine ⟨q.1, ?_⟩
  unfold Prog.cliJobs
  rw [hj]
  dsimp only
  unfold Prog.cliexecute
  rw [h3]
  unfold Prog.invoke
  have hev : (procProg P canon setOrder order lim routine actions hasattr other).eval s1 = .ok { s1 with marks := m, files := f } := by
    show procEval P canon lim s1 = _
    unfold procEval
    simp only [bind, Except.bind, hm, hf]
  have hacq : (procProg P canon setOrder order lim routine actions hasattr other).act k { s1 with marks := m, files := f } = .ok q := hq
  have hat : (procProg P canon setOrder order lim routine actions hasattr other).hasattr k.obj k.action = true := hattr
  simp only [bind, Except.bind, hev, hat, if_true, hacq]

/-- **C121**, once more: after a successful build, the same target asked for by another command line in a new process: nothing is made and no file changes.
(Without forced targets, all sources exist.) -/
theorem C121_again (hc : Idempotent canon) (hS : Sound P canon) {s s' : Proc α} (hr : Ready P canon s) (hr' : Ready P canon s')
    {c c' : Reg} (hlk : Looked canon P.reg c) (hlk' : Looked canon P.reg c') {root : Nat} (hroot : Registered P.reg root)
    (hkind : P.kind root ≠ .other) (hnf : ∀ o, Closure canon P.reg root o → P.force o = false)
    (hsrc : ∀ o, Closure canon P.reg root o → P.kind o = .source → (s.fs (P.path o)).isSome)
    {B : Invocation (withReg P c) canon root s.fs s.files} {clock : Nat} {tr : List (Make.Ev α)} {st : Make.St α}
    (ht : ∀ p e, s.fs p = some e → e.mtime ≤ clock) (hx : B.Run clock tr st) (hpr : Productive B tr) (hsu : st.Succeeded)
    (hfs : s'.fs = st.fs) (B' : Invocation (withReg P c') canon root s'.fs s'.files)
    {clock' : Nat} {tr' : List (Make.Ev α)} {st' : Make.St α} (hx' : B'.Run clock' tr' st') :
    B'.updates tr' = [] ∧ B'.commands tr' = [] ∧ st'.fs = st.fs := by
  have hsame := hlk.same hc
  have hsame' := hlk'.same hc
  have hacc : Accurate (withReg P c) s.fs s.files := by
    intro o' ho' hp'
    rw [path_same hsame]
    exact hr.files o' ((registered_same hsame _).1 ho') hp'
  obtain ⟨h1, _, h2⟩ := Make.C33_up_to_date (hlk.sound hc hS) ((registered_same hsame _).2 hroot) hkind hacc
    (fun o ho => hnf o (by rw [← closure_same hsame]; exact ho))
    (fun o ho hk => by rw [path_same hsame]; exact hsrc o (by rw [← closure_same hsame]; exact ho) hk) ht hx hpr hsu
  obtain ⟨h3, _⟩ := h2 [] (Or.inl rfl)
  rw [needsWork_same hsame] at h3
  rw [← hfs]
  refine Make.idle (hlk'.sound hc hS) ((registered_same hsame' _).2 hroot) hkind (fun o ho hp => ?_) (fun hw => ?_) hx'
  · rw [path_same hsame', hfs, ← path_same hsame]
    exact h1 o (by rw [closure_same hsame, ← closure_same hsame']; exact ho) hp
  · rw [needsWork_same hsame'] at hw
    refine h3 ((Make.needsWork_congr hroot (fun o ho hp => ?_)).1 hw)
    rw [hr'.files o ho hp, hfs]
    rfl

/-! ### an example -/

/-- the program of the demo project of `Make.Demo` -/
def cmdProg : Prog (Proc Nat) Unit :=
  procProg Make.demo id id Solver.idOrder 10 (fun _ => false) (fun _ => ["makefile", "recurse_update"]) (fun _ _ => true)
    fun _ s => .ok s

/-- a new process -/
def cmdSt : Proc Nat where
  run := { core := Make.demo.reg, cache := [], threads := none, args := fun _ => [], started := [] }
  marks := noMarks
  fs := Make.demoFs
  files := []

theorem demo_full : FullyRegistered id Make.demo.reg := by
  intro o ho d hd
  have := Make.demo_reg_iff.1 ho
  have : o = 0 ∨ o = 1 ∨ o = 2 ∨ o = 3 ∨ o = 4 := by omega
  rcases this with rfl | rfl | rfl | rfl | rfl
  · cases hd
  · cases hd
  all_goals
    simp only [Make.demo, List.mem_cons, List.not_mem_nil, or_false] at hd
  · rcases hd with rfl | rfl
    · exact ⟨0, Or.inl rfl⟩
    · exact ⟨1, Or.inl rfl⟩
  · rcases hd with rfl | rfl
    · exact ⟨2, Or.inl rfl⟩
    · exact ⟨1, Or.inl rfl⟩
  · subst hd; exact ⟨3, Or.inl rfl⟩

/-- The hypotheses of the theorems of C121 hold for `licant all makefile -j 1` and for `licant makefile -j 1` with the default
target `all`, in a project with a source, a missing directory, two files and a file set; the commands start the build
`Make.demoB`, which can run and succeed (`Make.demo_build`), and then again. -/
example : Idempotent (id : String → String) ∧ Sound Make.demo id ∧ FullyRegistered id Make.demo.reg ∧ New Make.demo cmdSt ∧
    Ready Make.demo id cmdSt ∧ Wants (some 8) "1" 1 ∧ (allDeps Make.demo.reg).length + 1 < 10 ∧ Make.demo.reg.targets.length < 10 ∧
    Asks cmdProg Make.demo.reg none ["all", "makefile"] ⟨4, "makefile", []⟩ ∧
    Asks cmdProg Make.demo.reg (some "all") ["makefile"] ⟨4, "makefile", []⟩ ∧ Make.demo.kind 4 ≠ .other ∧
    (∃ s', cmdProg.cliJobs Proc.setThreads (some 8) "1" none ["all", "makefile"] cmdSt = .ok s' ∧
      s'.run.started = [(Make.demoB.objs, Make.demoB.ds, Make.demoB.g, 1)] ∧ s'.marks.need = Make.demoB.need) ∧
    ∃ st, Make.demoB.Run 7 Make.demoTr st ∧ st.Succeeded ∧ Productive Make.demoB Make.demoTr ∧
      Ready Make.demo id { cmdSt with fs := st.fs } ∧
      ∃ s', cmdProg.cliJobs Proc.setThreads (some 8) "1" (some "all") ["makefile"] { cmdSt with fs := st.fs } = .ok s' ∧
        s'.run.started.length = 1 := by
  obtain ⟨st, h1, h2, _, h3, _⟩ := Make.demo_build
  have hst : st = Make.demoS := by
    have e1 := Make.run_iff.1 h1
    have e2 := Make.run_iff.1 Make.demoS_run
    rw [e1] at e2
    cases e2
    rfl
  subst hst
  have hready : ∀ fs, Ready Make.demo id { cmdSt with fs := fs } := fun fs =>
    ⟨rfl, fun _ _ => rfl, coherent_noMarks, Make.accurate_nil _ _⟩
  refine ⟨fun _ => rfl, Make.demo_sound, demo_full, ⟨rfl, rfl, rfl, rfl⟩, hready _, Or.inl (pyInt_iff.1 (by decide +kernel)), by decide +kernel, by decide,
    .action (Or.inl rfl) rfl (by decide), .defaultAction rfl ?_ (Or.inl rfl) (by decide), by decide, ⟨_, rfl, rfl, rfl⟩, _, h1, h2, h3, hready _,
    _, rfl, rfl⟩
  rintro o' (h | ⟨_, h⟩) <;> cases h

end Licant.Misc
