/-
Builds in a file system in which other things happen as well: directories have time stamps, commands write other
files than their targets, files are edited while the build runs, commands write their target bit by bit and read
their inputs when they like.  Model and specification for C131, C132, C133.
-/
import Verif.Make.History

set_option autoImplicit false

namespace Licant.Make
open Licant.Py Licant.Core Relation

variable {α : Type}

/-! ### model -/

/-- Events of a build and of what happens beside it.
* `ev e`: an event of licant's build (`Ev`)
* `other p d`: somebody (a build command, a compiler that leaves temporary files, the user) creates or changes the
  file `p` (`some (some v)`), makes the directory `p` (`some none`) or removes `p` (`none`).  Simplification: what is
  created or changed has the present time as its time stamp. -/
inductive WEv (α : Type) where
  | ev (e : Ev α)
  | other (p : String) (d : Option (Option α))

/-- The file system after `new` has come from `old` by creating or removing some of the paths `l` at time `clock`:
the directories of the paths that were created or removed get the present time as their time stamp (POSIX: `open`,
`mkdir`, `unlink`).  `up` is the directory of a path. -/
def touchDirs (up : String → String) (clock : Nat) (l : List String) (old new : FS α) : FS α := fun q =>
  match new q with
  | some ⟨m, none⟩ =>
    if l.any (fun p => up p == q && (old p).isSome != (new p).isSome) then some ⟨clock, none⟩ else some ⟨m, none⟩
  | x => x

/-- the paths an event may create: make.py:79 `os.makedirs(target.tgt)` and the targets of the build commands -/
def news (P : Proj α) (objs : List Nat) : Ev α → List String
  | .write i _ => ((objs[i]?).map P.path).toList
  | .sched (.finish _ i _) =>
    match objs[i]? with
    | some o => if P.kind o = .dir then P.path o :: P.parents (P.path o) else []
    | none => []
  | _ => []

/-- a path is created, changed or removed at time `clock` -/
def change (fs : FS α) (clock : Nat) (p : String) : Option (Option α) → FS α
  | some d => setFile fs p ⟨clock, d⟩
  | none => fun q => if q = p then none else fs q

/-- One event; as `step` (make.py:20-60, 70-80, 179-204; core.py:355-395; solver.py:113-154) with the time stamps of
directories, and the other things that happen. -/
def stepW (P : Proj α) (up : String → String) (need : Nat → Option Bool) (objs : List Nat) (g : Solver.Graph) (s : St α) :
    WEv α → Option (St α)
  | .ev e => (step P need objs g s e).map fun s' => { s' with fs := touchDirs up s.clock (news P objs e) s.fs s'.fs }
  | .other p d => some { s with fs := touchDirs up s.clock [p] s.fs (change s.fs s.clock p d) }

/-- Executions from `s0`. -/
inductive RunW (P : Proj α) (up : String → String) (need : Nat → Option Bool) (objs : List Nat) (g : Solver.Graph)
    (s0 : St α) : List (WEv α) → St α → Prop
  | nil : RunW P up need objs g s0 [] s0
  | snoc {tr s e s'} : RunW P up need objs g s0 tr s → stepW P up need objs g s e = some s' →
      RunW P up need objs g s0 (tr ++ [e]) s'

/-- the events of licant's build -/
def evs (tr : List (WEv α)) : List (Ev α) := tr.filterMap fun | .ev e => some e | _ => none

/-- `B.RunW up clock tr s`: started at time `clock`, the events `tr` can happen and lead to `s`. -/
def Invocation.RunW {P : Proj α} {canon : String → String} {root : Nat} {fs : FS α} {cache : FileCache}
    (B : Invocation P canon root fs cache) (up : String → String) (clock : Nat) (tr : List (WEv α)) (s : St α) : Prop :=
  Make.RunW P up B.need B.objs B.g (B.start clock) tr s

/-! ### specification -/

section Spec
variable {P : Proj α} {canon : String → String} {root : Nat} {fs : FS α} {cache : FileCache}

/-- Nobody but licant changes a file, source or directory target. -/
def Tidy (P : Proj α) (tr : List (WEv α)) : Prop :=
  ∀ p d, WEv.other p d ∈ tr → ∀ o, Registered P.reg o → IsPath P o → P.path o ≠ p

/-- No file target and no source is a directory. -/
def NoDirs (P : Proj α) (fs : FS α) : Prop :=
  ∀ o, Registered P.reg o → P.kind o = .file ∨ P.kind o = .source → ∀ e, fs (P.path o) = some e → e.data ≠ none

/-- Every build command that reported success has, at last, written to its target what it makes of its inputs, where
it read each of them at some moment after it had been started.  Nothing is said about what it wrote before, nor about
commands that failed or were killed. -/
def Honest (B : Invocation P canon root fs cache) (up : String → String) (clock : Nat) (tr : List (WEv α)) : Prop :=
  ∀ pre post w i o, tr = pre ++ .ev (.sched (.finish w i .ok)) :: post → B.objs[i]? = some o → P.kind o = .file →
    work P.reg B.need o = .calls →
    ∃ a c v f, pre = a ++ .ev (.write i v) :: c ∧ (∀ v', WEv.ev (.write i v') ∉ c) ∧ v = P.cmd o f ∧
      ∀ o', InputOf P canon o o' → ∃ a1 a2 s1, a = a1 ++ a2 ∧ (∃ w', WEv.ev (.sched (.start w' i)) ∈ a1) ∧
        B.RunW up clock a1 s1 ∧ f (P.path o') = contents s1.fs (P.path o')

/-- Whoever else changes files during the build leaves the built files alone, and changes a source only while no
command that reads it is running, at a moment later than all time stamps. -/
def Quiet (B : Invocation P canon root fs cache) (up : String → String) (clock : Nat) (tr : List (WEv α)) : Prop :=
  ∀ pre post p d s, tr = pre ++ .other p d :: post → B.RunW up clock pre s →
    ¬ IsProduct P p ∧
    ∀ x, Registered P.reg x → P.kind x = .source → P.path x = p →
      (∀ q e, s.fs q = some e → e.mtime < s.clock) ∧
      ∀ i o, Solver.WS.run i ∈ s.sol.ws → B.objs[i]? = some o → ¬ InputOf P canon o x

/-- the command of `o` wrote its target -/
def WrittenW (B : Invocation P canon root fs cache) (tr : List (WEv α)) (o : Nat) : Prop :=
  ∃ i v, WEv.ev (.write i v) ∈ tr ∧ B.objs[i]? = some o

/-- the work function of `o` ended successfully -/
def DoneW (B : Invocation P canon root fs cache) (tr : List (WEv α)) (o : Nat) : Prop :=
  ∃ w i, WEv.ev (.sched (.finish w i .ok)) ∈ tr ∧ B.objs[i]? = some o

end Spec

/-! ### basic facts -/

section Basic
variable {P : Proj α} {up : String → String} {need : Nat → Option Bool} {objs : List Nat} {g : Solver.Graph} {n : Nat}
  {s0 s : St α} {tr : List (WEv α)}

@[simp] theorem evs_nil : evs ([] : List (WEv α)) = [] := rfl
@[simp] theorem evs_append (a b : List (WEv α)) : evs (a ++ b) = evs a ++ evs b := by simp [evs]
@[simp] theorem evs_ev (e : Ev α) : evs [WEv.ev e] = [e] := rfl
@[simp] theorem evs_other (p : String) (d : Option (Option α)) : evs [WEv.other p d] = [] := rfl

theorem mem_evs {e : Ev α} : e ∈ evs tr ↔ WEv.ev e ∈ tr := by
  simp only [evs, List.mem_filterMap]
  constructor
  · rintro ⟨x, hx, h⟩
    cases x <;> simp at h
    subst h; exact hx
  · intro h; exact ⟨_, h, rfl⟩

/-- only time stamps of directories are touched -/
theorem touchDirs_cases (clock : Nat) (l : List String) (old new : FS α) (q : String) :
    touchDirs up clock l old new q = new q ∨
      ∃ m, new q = some ⟨m, none⟩ ∧ touchDirs up clock l old new q = some ⟨clock, none⟩ := by
  unfold touchDirs
  split
  · rename_i m h
    split
    · exact Or.inr ⟨m, h, rfl⟩
    · exact Or.inl h.symm
  · exact Or.inl rfl

theorem touchDirs_isSome (clock : Nat) (l : List String) (old new : FS α) (q : String) :
    (touchDirs up clock l old new q).isSome = (new q).isSome := by
  rcases touchDirs_cases (up := up) clock l old new q with h | ⟨m, h, h'⟩
  · rw [h]
  · rw [h', h]; rfl

theorem touchDirs_file {clock : Nat} {l : List String} {old new : FS α} {q : String} {e : Entry α} (h : new q = some e)
    (hd : e.data ≠ none) : touchDirs up clock l old new q = some e := by
  rcases touchDirs_cases (up := up) clock l old new q with h' | ⟨m, h', _⟩
  · rw [h', h]
  · rw [h] at h'; cases h'; exact absurd rfl hd

theorem touchDirs_none {clock : Nat} {l : List String} {old new : FS α} {q : String} (h : new q = none) :
    touchDirs up clock l old new q = none := by
  rcases touchDirs_cases (up := up) clock l old new q with h' | ⟨m, h', _⟩
  · rw [h', h]
  · rw [h] at h'; cases h'

theorem contents_touchDirs (clock : Nat) (l : List String) (old new : FS α) :
    contents (touchDirs up clock l old new) = contents new := by
  funext q
  unfold contents
  rcases touchDirs_cases (up := up) clock l old new q with h' | ⟨m, h, h'⟩
  · rw [h']
  · rw [h', h]; rfl

theorem stepW_ev {e : Ev α} {s' : St α} (h : stepW P up need objs g s (.ev e) = some s') :
    ∃ s1, step P need objs g s e = some s1 ∧
      s' = { s1 with fs := touchDirs up s.clock (news P objs e) s.fs s1.fs } := by
  simp only [stepW, Option.map_eq_some_iff] at h
  obtain ⟨s1, h1, h2⟩ := h
  exact ⟨s1, h1, h2.symm⟩

/-- the solver's part of a step -/
theorem step_sol {e : Ev α} {s' : St α} (h : step P need objs g s e = some s') :
    (∃ x, e = .sched x ∧ Solver.step g s.sol x = some s'.sol) ∨ ((∀ x, e ≠ .sched x) ∧ s'.sol = s.sol) := by
  cases e with
  | tick => cases h; exact Or.inr ⟨by simp, rfl⟩
  | write i v =>
    simp only [step] at h
    split at h
    · split at h
      · cases h; exact Or.inr ⟨by simp, rfl⟩
      · cases h
    · cases h
  | sched e =>
    refine Or.inl ⟨e, rfl, ?_⟩
    simp only [step] at h
    split at h
    · cases h
    · rename_i sol hsol
      split at h
      · split at h
        · split at h
          · cases h; exact hsol
          · cases h
        · cases h
      · cases h; exact hsol

theorem RunW.exec (h0 : s0.sol = Solver.init g n) (h : RunW P up need objs g s0 tr s) :
    Solver.Exec g n (sched (evs tr)) s.sol := by
  induction h with
  | nil => rw [h0]; exact .init
  | @snoc tr s e s' _ hst ih =>
    cases e with
    | other p d => cases hst; simpa using ih
    | ev e =>
      obtain ⟨s1, h1, rfl⟩ := stepW_ev hst
      rw [evs_append, evs_ev, sched_append]
      rcases step_sol h1 with ⟨x, rfl, hx⟩ | ⟨hne, hx⟩
      · exact .snoc ih hx
      · have : sched [e] = [] := by
          cases e with
          | sched x => exact absurd rfl (hne x)
          | tick => rfl
          | write i v => rfl
        rw [this, List.append_nil]
        simpa [hx] using ih

theorem RunW.prefix (h : RunW P up need objs g s0 tr s) :
    ∀ pre post, tr = pre ++ post → ∃ s', RunW P up need objs g s0 pre s' := by
  induction h with
  | nil =>
    intro pre post h
    have : pre = [] := by cases pre <;> simp_all
    subst this; exact ⟨_, .nil⟩
  | @snoc tr s e s' hx hst ih =>
    intro pre post h
    rcases List.eq_nil_or_concat post with rfl | ⟨q, x, rfl⟩
    · rw [List.append_nil] at h; subst h; exact ⟨s', .snoc hx hst⟩
    · rw [List.concat_eq_append, ← List.append_assoc] at h
      exact ih pre q (List.append_inj' h rfl).1

/-- running a list of events -/
def runW (P : Proj α) (up : String → String) (need : Nat → Option Bool) (objs : List Nat) (g : Solver.Graph) :
    St α → List (WEv α) → Option (St α)
  | s, [] => some s
  | s, e :: es => (stepW P up need objs g s e).bind fun s' => runW P up need objs g s' es

theorem runW_append : ∀ (a b : List (WEv α)) (s : St α),
    runW P up need objs g s (a ++ b) = (runW P up need objs g s a).bind (fun s' => runW P up need objs g s' b) := by
  intro a
  induction a with
  | nil => intro b s; rfl
  | cons e es ih =>
    intro b s
    simp only [List.cons_append, runW]
    cases stepW P up need objs g s e with
    | none => rfl
    | some s' => simp [ih]

theorem runW_iff : RunW P up need objs g s0 tr s ↔ runW P up need objs g s0 tr = some s := by
  constructor
  · intro h
    induction h with
    | nil => rfl
    | snoc _ hst ih => rw [runW_append, ih]; simp [runW, hst]
  · revert s
    induction tr using List.reverseRecOn with
    | nil => intro s h; cases h; exact .nil
    | append_singleton tr e ih =>
      intro s h
      rw [runW_append] at h
      cases h1 : runW P up need objs g s0 tr with
      | none => rw [h1] at h; cases h
      | some s1 =>
        rw [h1] at h
        simp only [Option.bind_some, runW] at h
        refine .snoc (ih h1) ?_
        cases hst : stepW P up need objs g s1 e with
        | none => rw [hst] at h; cases h
        | some s2 => rw [hst] at h; exact h

end Basic

section Sched
variable {P : Proj α} {canon : String → String} {root : Nat} {fs0 : FS α} {cache0 : FileCache}
  {B : Invocation P canon root fs0 cache0} {up : String → String} {clock0 : Nat} {s : St α} {tr : List (WEv α)}

theorem Invocation.RunW.exec (h : B.RunW up clock0 tr s) : Solver.Exec B.g B.n (sched (evs tr)) s.sol :=
  Make.RunW.exec (n := B.n) rfl h

theorem mem_schedW {e : Solver.Ev} : e ∈ sched (evs tr) ↔ WEv.ev (.sched e) ∈ tr := by rw [mem_sched, mem_evs]

theorem Invocation.invW (hS : Sound P canon) (hroot : Registered P.reg root) (h : B.RunW up clock0 tr s) :
    ∃ dep, Solver.PInv B.g dep B.n (sched (evs tr)) s.sol ∧ ∀ i j, j ∈ dep i ↔ Solver.DependsOn B.ds i j := by
  obtain ⟨_, order, lim, ho, hg⟩ := B.prep hS hroot
  obtain ⟨_, _, _, _, dep, hwf, hdep⟩ := Solver.accepted ho hg
  exact ⟨dep, Solver.inv_of_exec hwf h.exec, hdep⟩

/-- when a target has been started, everything it depends on has been finished successfully -/
theorem deps_finishedW (hS : Sound P canon) (hroot : Registered P.reg root) (h : B.RunW up clock0 tr s)
    {i o o' : Nat} (hst : i ∈ Solver.starts (sched (evs tr))) (hi : B.objs[i]? = some o)
    (ht : TransGen (ObjDep canon P.reg) o o') :
    ∃ j w, B.objs[j]? = some o' ∧ WEv.ev (.sched (.finish w j .ok)) ∈ tr := by
  obtain ⟨dep, I, hdep⟩ := B.invW hS hroot h
  have Pr := (B.prep hS hroot).1
  obtain ⟨j, hj, htd⟩ := (Pr.trans hS.consistent hroot hi).2 o' ht
  have : ∀ k, TransGen (Solver.DependsOn B.ds) i k → ∃ w, Solver.Ev.finish w k .ok ∈ sched (evs tr) := by
    intro k hk
    induction hk with
    | single hd => exact I.depsOk i hst _ ((hdep _ _).2 hd)
    | @tail y z _ hyz ih =>
      obtain ⟨w, hw⟩ := ih
      exact I.depsOk y (I.endsStarted y (Solver.mem_ends.2 ⟨w, _, hw⟩)) z ((hdep _ _).2 hyz)
  obtain ⟨w, hw⟩ := this j htd
  exact ⟨j, w, hj, mem_schedW.1 hw⟩

theorem not_runningW (hS : Sound P canon) (hroot : Registered P.reg root) (h : B.RunW up clock0 tr s)
    {w j : Nat} {r : Solver.Ret} (hf : WEv.ev (.sched (.finish w j r)) ∈ tr) : Solver.WS.run j ∉ s.sol.ws := by
  intro hm
  obtain ⟨dep, I, _⟩ := B.invW hS hroot h
  obtain ⟨w', hw'⟩ := List.getElem?_of_mem hm
  exact (I.runs w' j hw').2 (Solver.mem_ends.2 ⟨w, r, mem_schedW.2 hf⟩)

theorem running_startedW (hS : Sound P canon) (hroot : Registered P.reg root) (h : B.RunW up clock0 tr s)
    {j : Nat} (hm : Solver.WS.run j ∈ s.sol.ws) : j ∈ Solver.starts (sched (evs tr)) := by
  obtain ⟨dep, I, _⟩ := B.invW hS hroot h
  obtain ⟨w', hw'⟩ := List.getElem?_of_mem hm
  exact (I.runs w' j hw').1

theorem finished_startedW (hS : Sound P canon) (hroot : Registered P.reg root) (h : B.RunW up clock0 tr s)
    {w j : Nat} {r : Solver.Ret} (hf : WEv.ev (.sched (.finish w j r)) ∈ tr) : j ∈ Solver.starts (sched (evs tr)) := by
  obtain ⟨dep, I, _⟩ := B.invW hS hroot h
  exact I.endsStarted j (Solver.mem_ends.2 ⟨w, r, mem_schedW.2 hf⟩)

/-- a started target that has not ended is running -/
theorem started_runningW (hS : Sound P canon) (hroot : Registered P.reg root) (h : B.RunW up clock0 tr s)
    {j : Nat} (hm : j ∈ Solver.starts (sched (evs tr))) (hn : ∀ w r, WEv.ev (.sched (.finish w j r)) ∉ tr) :
    Solver.WS.run j ∈ s.sol.ws := by
  obtain ⟨dep, I, _⟩ := B.invW hS hroot h
  rcases I.startedWhere j hm with he | ⟨w, hw⟩
  · obtain ⟨w, r, hf⟩ := Solver.mem_ends.1 he
    exact absurd (mem_schedW.1 hf) (hn w r)
  · exact List.mem_of_getElem? hw

end Sched

/-- a path of a file or source is no directory that a build makes -/
theorem not_made {P : Proj α} {canon : String → String} (hS : Sound P canon) {b o : Nat} (hb : Registered P.reg b)
    (hkb : P.kind b = .dir) (ho : Registered P.reg o) (hk : P.kind o = .file ∨ P.kind o = .source) :
    ¬ (P.path o = P.path b ∨ P.path o ∈ P.parents (P.path b)) := by
  rintro (hp | hp)
  · have := path_inj hS ho hb hp
    subst this
    rcases hk with hk | hk <;> rw [hk] at hkb <;> cases hkb
  · rcases hS.ancestors b o hb hkb ho hp with h1 | h1 | ⟨h1, _⟩ <;>
      rcases hk with hk | hk <;> rw [hk] at h1 <;> cases h1

end Licant.Make
