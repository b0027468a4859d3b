/-
Example for C98 and C99: the program of `ProgramDemo` built from scratch, then looked at by a second process.
-/
import Verif.Cxx.Twice
import Verif.Cxx.ProgramDemo

set_option autoImplicit false

namespace Licant.Cxx
open Licant.Py Licant.Core Licant.Make Relation
open Licant.Modules (Val Opts Toolchain Lib IsModule)

/-- only the sources exist -/
def newSite : Site where
  env := listEnv [".", "/", "//", "/s", "/s/a.c", "/s/b.c", "/s/h.h", "/s/l.h"]
  lim := 50
  uni := fun _ => false
  file := fun _ => none

def newFiles : List String :=
  ["/s/a.c", "/s/b.c", "/s/l.h", "/b/a.o", "/b/b.o", "/b/a.d", "/b/b.d", "/b/l.h", "/b/app"]

def new1 : Except Modules.Err LReg := registerParts newSite ⟨licantReg, fun _ => false, fun _ => none⟩ "lh" progParts progOpts progOpts

def newL1 : LReg := okD ⟨licantReg, fun _ => false, fun _ => none⟩ new1

def new2 : Except Modules.Err LReg := addFile newSite newL1 "/b/app" progParts.objects false fun t => .ok t

def newL : LReg := okD ⟨licantReg, fun _ => false, fun _ => none⟩ new2

def newP : Proj Nat where
  reg := newL.m.reg
  kind := newL.m.kind
  force := newL.force
  upd := fun _ => .ok false
  cmd := fun _ _ => 0
  parents := fun _ => []

/-- the objects of the project; 0 to 3 are those of licant -/
def newAll : List Nat := [4, 18, 6, 7, 8, 10, 12, 13, 15, 17, 19]

/-- the names of targets that are no files -/
def noFiles : List String := "lh" :: licantNames

def newFs : FS Nat := fun p => if p ∈ ["/s/a.c", "/s/b.c", "/s/h.h", "/s/l.h"] then some ⟨1, some 0⟩ else none

def newNeed : Nat → Option Bool :=
  (okD noMarks (updateNeeds (fun p => p) newP.reg (updIf newP (fun p => p) newFs [] 50) 50 noMarks)).need

/-- one worker builds everything; 0: `/b`, 1: `/b/a.d`, 2: `/b/a.o`, 3: `/b/app`, 4: `/b/b.d`, 5: `/b/b.o`, 6: `/b/l.h`,
7 to 9: sources, 10: `lh` -/
def newTr : List (Ev Nat) :=
  [.sched (.start 0 0), .sched (.finish 0 0 .ok), .sched (.start 0 7), .sched (.finish 0 7 .ok),
   .sched (.start 0 8), .sched (.finish 0 8 .ok), .sched (.start 0 9), .sched (.finish 0 9 .ok),
   .sched (.start 0 6), .write 6 7, .sched (.finish 0 6 .ok), .sched (.start 0 10), .sched (.finish 0 10 .ok),
   .sched (.start 0 1), .write 1 7, .sched (.finish 0 1 .ok), .sched (.start 0 4), .write 4 7, .sched (.finish 0 4 .ok), .tick,
   .sched (.start 0 2), .write 2 7, .sched (.finish 0 2 .ok), .sched (.start 0 5), .write 5 7, .sched (.finish 0 5 .ok),
   .sched (.start 0 3), .write 3 7, .sched (.finish 0 3 .ok)]

def newRun : Option (St Nat) :=
  let g := prepared newP (fun p => p) 19 50 1
  runEvs newP newNeed g.1 g.2.2.1 ⟨Solver.init g.2.2.1 1, newFs, 10,
    okD [] (evalCache newP (fun p => p) newFs 50 newAll [])⟩ newTr

/-- the files after the build -/
def newFs' : FS Nat := (newRun.map (·.fs)).getD newFs

def progNeed' : Nat → Option Bool :=
  (okD noMarks (updateNeeds (fun p => p) progP.reg (updIf progP (fun p => p) newFs' [] 50) 50 noMarks)).need

/-- a worker of the second process looks at everything -/
def progTr' : List (Ev Nat) :=
  [6, 7, 8, 9, 5, 10, 0, 3, 1, 4, 2].flatMap fun i => [.sched (.start 0 i), .sched (.finish 0 i .ok)]

def progRun' : Option (St Nat) :=
  let g := prepared progP (fun p => p) 14 50 1
  runEvs progP progNeed' g.1 g.2.2.1 ⟨Solver.init g.2.2.1 1, newFs', 20,
    okD [] (evalCache progP (fun p => p) newFs' 50 progAll [])⟩ progTr'

/-- everything that has to be computed -/
theorem new_facts : (new1.isOk = true ∧ new2.isOk = true ∧ newL.m.reg.next - 1 = 19) ∧
    (newP.reg.targets.keys.Nodup ∧ newP.reg.targets.map (·.2) = List.range 4 ++ newAll ∧
      (∀ o ∈ List.range 4, (newP.reg.obj o).upd = false) ∧ (∀ o ∈ newAll, (newP.reg.obj o).upd = true) ∧
      ∀ o ∈ List.range 4 ++ newAll, newP.path o ∈ noFiles ++ ["/b"] ++ progFiles) ∧
    ((recurseUpdate (fun p => p) newP.reg id Solver.idOrder 50 [] none 19 (some 1)).isOk = true ∧
      (prepared newP (fun p => p) 19 50 1).2.2.2 = 1 ∧
      (evalCache newP (fun p => p) newFs 50 newAll []).isOk = true ∧
      (updateNeeds (fun p => p) newP.reg (updIf newP (fun p => p) newFs [] 50) 50 noMarks).isOk = true) ∧
    (newRun.isSome = true ∧ newRun.all (fun s => s.sol.unfinished = 0 ∧ s.sol.verdict = true ∧
        (∀ f ∈ ["/s/a.c", "/s/b.c", "/s/h.h", "/s/l.h"], (s.fs f).isSome = true) ∧ (∀ f ∈ noFiles, (s.fs f).isNone = true) ∧
        (s.fs "/s/h.h").map (·.mtime) = some 1 ∧ (s.fs "/s/h.h").map (·.data) = some (some 0) ∧
        ((s.fs "/b/a.d").map (·.mtime)) = some 10)) ∧
    (productiveB (prepared newP (fun p => p) 19 50 1).1
      ((updateCalls newP.reg newNeed (prepared newP (fun p => p) 19 50 1).1 (sched newTr)).filter (fun o => newP.kind o = .file))
      newTr = true) ∧
    ((evalCache progP (fun p => p) newFs' 50 progAll []).isOk = true ∧
      (updateNeeds (fun p => p) progP.reg (updIf progP (fun p => p) newFs' [] 50) 50 noMarks).isOk = true ∧
      progRun'.isSome = true ∧ progRun'.all (fun s => s.sol.unfinished = 0 ∧ s.sol.verdict = true) ∧
      ∀ o ∈ List.range 4 ++ progAll, progP.kind o = .source → progP.path o ∈ ["/s/a.c", "/s/b.c", "/s/h.h", "/s/l.h"]) := by
  decide +kernel

theorem newSite_sane : newSite.env.Sane := listEnv_sane (by decide +kernel) (by decide +kernel)

theorem newParts_fit : progParts.Fit newSite licantReg "lh" "/b/app" newFiles [] where
  room := room_licant (fun _ => rfl) ["/s", "/b", "/"] (by decide +kernel) (by decide +kernel) (by decide +kernel)
    (by decide +kernel) (by decide) (by decide +kernel)
  files := by decide +kernel
  homes := fun _ _ => ⟨rfl, rfl⟩
  outputs := by decide +kernel
  free := fun p hp => licant_free (fun _ => rfl) (by revert p; decide +kernel)
  raws := by decide +kernel
  ins := by decide +kernel
  extras := by intro f hf; cases hf
  depends := by intro f hf; cases hf
  set := by
    refine ⟨licant_free (fun _ => rfl) (by decide +kernel), by decide +kernel, by decide +kernel, fun f hf => ⟨?_, ?_⟩⟩
    · show f ≠ _
      revert f
      decide +kernel
    · have hp : parent f ∈ ["/s", "/b", "/"] := by revert f; decide +kernel
      rintro ⟨i, _, h⟩
      have := anc_mem (A := ["/s", "/b", "/"]) (p := f) (by decide +kernel) hp i
      change _ = anc f i at h
      rw [← h] at this
      revert this
      decide +kernel

attribute [local irreducible] progL progL1 prog1 prog2 newL newL1 new1 new2

theorem new_program : Program newSite newL progParts "lh" "/b/app" progOpts 19 newFiles [] := by
  obtain ⟨⟨h1, h2, h3⟩, _⟩ := new_facts
  rw [← h3]
  exact And.left (parts_program (L := ⟨licantReg, fun _ => false, fun _ => none⟩) (o1 := progOpts) (L1 := newL1) newSite_sane goodD_licantReg
    newParts_fit
    (by have := okD_eq (d := ⟨licantReg, fun _ => false, fun _ => none⟩) h1; unfold new1 at this; rw [this]; unfold newL1 new1; rfl)
    (by have := okD_eq (d := ⟨licantReg, fun _ => false, fun _ => none⟩) h2; unfold new2 at this; rw [this]; unfold newL new2; rfl))

theorem prog_unforced : ∀ o, progL.force o = false := by
  obtain ⟨⟨h1, h2, _⟩, _⟩ := prog_facts
  refine parts_unforced (S := progSite) (L := ⟨licantReg, fun _ => false, fun _ => none⟩) (L1 := progL1) (M := progParts)
    (lh := "lh") (tgt := "/b/app") (o1 := progOpts) (o2 := progOpts) (cmd := fun t => .ok t)
    (by have := okD_eq (d := ⟨licantReg, fun _ => false, fun _ => none⟩) h1; unfold prog1 at this; rw [this]; unfold progL1 prog1; rfl)
    (by have := okD_eq (d := ⟨licantReg, fun _ => false, fun _ => none⟩) h2; unfold prog2 at this; rw [this]; unfold progL prog2; rfl)
    (fun _ => rfl) (by decide +kernel)

theorem new_all : ∀ o, o ∈ newAll ↔ Registered newP.reg o ∧ (newP.reg.obj o).upd = true := by
  obtain ⟨_, ⟨hn, hl, hb, hu, _⟩, _⟩ := new_facts
  intro o
  rw [registered_iff_mem hn, hl, List.mem_append]
  refine ⟨fun h => ⟨Or.inr h, hu o h⟩, ?_⟩
  rintro ⟨h | h, h'⟩
  · rw [hb o h] at h'; cases h'
  · exact h

/-- the build from scratch -/
def newB : Invocation newP (fun p => p) 19 newFs [] :=
  invocationOf 50 1 newAll new_all new_facts.2.2.1.2.2.1 new_facts.2.2.1.2.2.2
    new_facts.2.2.1.1 new_facts.2.2.1.2.1

def newS : St Nat := newRun.getD (newB.start 10)

theorem newRun_eq : newRun = some newS := by
  obtain ⟨s, hs⟩ := Option.isSome_iff_exists.1 new_facts.2.2.2.1.1
  simp [newS, hs]

theorem newFs'_eq : newFs' = newS.fs := by
  unfold newFs'
  rw [newRun_eq]
  rfl

theorem newS_run : newB.Run 10 newTr newS := run_iff.2 newRun_eq

theorem newS_facts : newS.sol.unfinished = 0 ∧ newS.sol.verdict = true ∧
    (∀ f ∈ ["/s/a.c", "/s/b.c", "/s/h.h", "/s/l.h"], (newS.fs f).isSome = true) ∧ (∀ f ∈ noFiles, (newS.fs f).isNone = true) ∧
    (newS.fs "/s/h.h").map (·.mtime) = some 1 ∧ (newS.fs "/s/h.h").map (·.data) = some (some 0) ∧
    ((newS.fs "/b/a.d").map (·.mtime)) = some 10 := by
  have := new_facts.2.2.2.1.2
  rw [newRun_eq] at this
  simpa using this

theorem newS_sees {p : String} {e : Entry Nat} (h : newS.fs p = some e) : progSite.env.ex p = true := by
  have hmem : ∀ o, Registered newP.reg o → newP.path o ∈ noFiles ++ ["/b"] ++ progFiles := by
    intro o ho
    obtain ⟨_, ⟨hn, hl, _, _, hu⟩, _⟩ := new_facts
    rw [registered_iff_mem hn, hl] at ho
    exact hu o ho
  have hS : Sound newP (fun p => p) :=
    (new_program.good.sound newSite_sane newP rfl rfl (by intro p q h; cases h)).1
  have hroot : Registered newP.reg 19 := ((new_all 19).1 (by decide)).1
  have hp : p ∈ ["/s/a.c", "/s/b.c", "/s/h.h", "/s/l.h"] ∨ p ∈ noFiles ++ ["/b"] ++ progFiles := by
    rcases fs_change newS_run p with h' | ⟨i, v, o, _, _, _, h1, _, h2, _⟩ | ⟨_, _, b, j, _, _, _, h1, _, _, h2⟩
    · rw [h] at h'
      refine Or.inl ?_
      by_contra hc
      unfold newFs at h'
      rw [if_neg hc] at h'
      cases h'
    · exact Or.inr (h2 ▸ hmem o (newB.reg hS hroot h1))
    · rcases h2 with h2 | h2
      · exact Or.inr (h2 ▸ hmem b (newB.reg hS hroot h1))
      · cases h2
  have hlh : p ∉ noFiles := by
    intro hm
    have := newS_facts.2.2.2.1 p hm
    rw [h] at this
    cases this
  have hp' := List.mem_append.2 hp
  have key : ∀ p ∈ ["/s/a.c", "/s/b.c", "/s/h.h", "/s/l.h"] ++ (noFiles ++ ["/b"] ++ progFiles), p ∉ noFiles →
      progSite.env.ex p = true := by decide +kernel
  exact key p hp' hlh

/-- the second process -/
def progB' : Invocation progP (fun p => p) 14 newS.fs [] :=
  invocationOf 50 1 progAll prog_all (newFs'_eq ▸ new_facts.2.2.2.2.2.1) (newFs'_eq ▸ new_facts.2.2.2.2.2.2.1)
    prog_facts.2.2.2.1 prog_facts.2.2.2.2.1

theorem prog_listed : Listed newSite progSite progL progParts newFs newS.fs 10 := by
  intro u hu h hh
  have hh' : u.2.2 = "/b/a.d" ∧ h = "/s/h.h" := by
    revert u h
    decide +kernel
  obtain ⟨hd, rfl⟩ := hh'
  obtain ⟨_, _, _, _, h1, h2, h3⟩ := newS_facts
  refine Or.inr (Or.inr ⟨fun y hy => prog_source (by simp) hy, rfl, ?_, ?_⟩)
  · show newS.fs "/s/h.h" = some ⟨1, some 0⟩
    cases he : newS.fs "/s/h.h" with
    | none => rw [he] at h1; cases h1
    | some e =>
      rw [he] at h1 h2
      obtain ⟨t, d⟩ := e
      cases h1; cases h2; rfl
  · rw [hd]
    show ∃ e, newS.fs "/b/a.d" = some e ∧ _
    cases he : newS.fs "/b/a.d" with
    | none => rw [he] at h3; cases h3
    | some e =>
      rw [he] at h3
      simp only [Option.map_some, Option.some.injEq] at h3
      exact ⟨e, rfl, by omega⟩

theorem newFs_old : ∀ p e, newFs p = some e → e.mtime ≤ 10 := by
  intro p e h
  unfold newFs at h
  split at h
  · cases h; decide
  · cases h

theorem newS_productive : Productive newB newTr := productive_of new_facts.2.2.2.2.1

theorem newS_succeeded : newS.Succeeded := by
  have := newS_facts
  exact ⟨this.1, this.2.1⟩

/-- C98: after the build from scratch the object file is there, and no header it is made from is newer. -/
example : ∃ e, newS.fs "/b/a.o" = some e ∧
    ∀ g, Needs newSite progParts "/b/app" "/b/a.o" g → ∀ e', newS.fs g = some e' → e'.mtime ≤ e.mtime :=
  C98_fresh newSite_sane new_program (P := newP) ⟨rfl, rfl, rfl⟩ (by intro p q h; cases h) (accurate_nil _ _) newFs_old newS_run
    newS_productive newS_succeeded (Or.inl (by decide +kernel))
    (.single ⟨"/b/app", "/b/a.o", .link (by decide +kernel), rfl, rfl⟩)

theorem prog_sources : ∀ o, Closure progSite.env.canon progP.reg 14 o → progP.kind o = .source → (newS.fs (progP.path o)).isSome := by
  intro o ho hk
  have h14 : Registered progP.reg 14 := ((prog_all 14).1 (by decide)).1
  have hr : Registered progP.reg o := closure_registered h14 ho
  rw [registered_iff_mem prog_facts.2.1.1, prog_facts.2.1.2.1] at hr
  exact newS_facts.2.2.1 _ (new_facts.2.2.2.2.2.2.2.2.2 o hr hk)

/-- C99: the second process, which now knows that `/b/a.o` depends on `/s/h.h`, does nothing. -/
example : ∃ s', progB'.Run 20 progTr' s' ∧ s'.Succeeded ∧ progB'.updates progTr' = [] ∧ progB'.commands progTr' = [] ∧
    s'.fs = newS.fs := by
  obtain ⟨s', hs'⟩ := Option.isSome_iff_exists.1 new_facts.2.2.2.2.2.2.2.1
  have h2 := new_facts.2.2.2.2.2.2.2.2.1
  rw [hs'] at h2
  have hrun : progB'.Run 20 progTr' s' := by
    refine run_iff.2 ?_
    rw [← hs']
    unfold progRun' progNeed'
    rw [newFs'_eq]
    rfl
  refine ⟨s', hrun, by simpa [St.Succeeded, Solver.St.returned] using h2, ?_⟩
  exact C99_second_run newSite_sane new_program (P := newP) ⟨rfl, rfl, rfl⟩ (by intro p q h; cases h) (accurate_nil _ _)
    newFs_old newS_run newS_productive newS_succeeded progSite_sane prog_program (P' := progP) ⟨rfl, rfl, rfl⟩
    (by intro p q h; cases h) rfl (fun p e h => newS_sees h) prog_selfContained (by intro f hf; cases hf) prog_listed
    prog_unforced prog_sources hrun

end Licant.Cxx
