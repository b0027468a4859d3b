/-
Example for C153: a header of the program of `ProgramDemo` is deleted; then the same with the directory of the header.
-/
import Verif.Cxx.Deleted

set_option autoImplicit false

namespace Licant.Cxx
open Licant.Py Licant.Core Licant.Make Relation

/-- the files of `ProgramDemo`, where the dependency file of `a.c` lists a header in a directory that does not exist any more -/
def goneSite : Site where
  env := listEnv [".", "/", "//", "/s", "/b", "/s/a.c", "/s/b.c", "/s/l.h", "/b/a.o", "/b/b.o", "/b/a.d", "/b/b.d", "/b/l.h", "/b/app"]
  lim := 50
  uni := fun _ => false
  file := fun p => if p = "/b/a.d" then some "/b/a.o: /s/a.c /s/old/h.h\n".toList else
    if p = "/b/b.d" then some "/b/b.o: /s/b.c\n".toList else none

def goneFiles : List String :=
  ["/s/a.c", "/s/b.c", "/s/old/h.h", "/s/l.h", "/b/a.o", "/b/b.o", "/b/a.d", "/b/b.d", "/b/l.h", "/b/app"]

def gone1 : Except Modules.Err LReg := registerParts goneSite ⟨licantReg, fun _ => false, fun _ => none⟩ "lh" progParts progOpts progOpts

def goneL1 : LReg := okD ⟨licantReg, fun _ => false, fun _ => none⟩ gone1

def gone2 : Except Modules.Err LReg := addFile goneSite goneL1 "/b/app" progParts.objects false fun t => .ok t

def goneL : LReg := okD ⟨licantReg, fun _ => false, fun _ => none⟩ gone2

def goneP : Proj Nat where
  reg := goneL.m.reg
  kind := goneL.m.kind
  force := goneL.force
  upd := fun _ => .ok false
  cmd := fun _ _ => 0
  parents := fun _ => []

/-- the objects of the project; 0 to 3 are those of licant -/
def goneAll : List Nat := List.range' 4 12

/-- everything has been built; then the directory `/s/old` was removed -/
def goneFs : FS Nat := fun p => if p = "/s/h.h" then none else progFs p

/-- one worker; 0: `/b/a.d`, 1: `/b/a.o`, 2: `/b/app`, 3: `/b/b.d`, 4: `/b/b.o`, 5: `/b/l.h`, 6 to 8: sources, 9: `/s/old`,
10: `/s/old/h.h`, 11: `lh` -/
def goneTr : List (Ev Nat) :=
  [.sched (.start 0 6), .sched (.finish 0 6 .ok), .sched (.start 0 7), .sched (.finish 0 7 .ok),
   .sched (.start 0 8), .sched (.finish 0 8 .ok), .sched (.start 0 9), .sched (.finish 0 9 .ok),
   .sched (.start 0 5), .sched (.finish 0 5 .ok), .sched (.start 0 10), .sched (.finish 0 10 .ok),
   .sched (.start 0 11), .sched (.finish 0 11 .ok), .sched (.start 0 0), .write 0 7, .sched (.finish 0 0 .ok),
   .sched (.start 0 3), .sched (.finish 0 3 .ok), .sched (.start 0 1), .write 1 7, .sched (.finish 0 1 .ok),
   .sched (.start 0 4), .sched (.finish 0 4 .ok), .sched (.start 0 2), .write 2 7, .sched (.finish 0 2 .ok)]

def goneNeed : Nat → Option Bool :=
  (okD noMarks (updateNeeds (fun p => p) goneP.reg (updIf goneP (fun p => p) goneFs [] 50) 50 noMarks)).need

def goneRun : Option (St Nat) :=
  let g := prepared goneP (fun p => p) 15 50 1
  runEvs goneP goneNeed g.1 g.2.2.1 ⟨Solver.init g.2.2.1 1, goneFs, 10,
    okD [] (evalCache goneP (fun p => p) goneFs 50 goneAll [])⟩ goneTr

/-- the program of `ProgramDemo` after the header `/s/h.h` was deleted -/
def delFs : FS Nat := deleted progFs (progP.path 8)

def delRun : Option (St Nat) :=
  let g := prepared progP (fun p => p) 14 50 1
  runEvs progP (progNeed delFs) g.1 g.2.2.1 ⟨Solver.init g.2.2.1 1, delFs, 10,
    okD [] (evalCache progP (fun p => p) delFs 50 progAll [])⟩ progTr

/-- everything that has to be computed -/
theorem gone_facts : (gone1.isOk = true ∧ gone2.isOk = true ∧ goneL.m.reg.next - 1 = 15) ∧
    (goneP.reg.targets.keys.Nodup ∧ goneP.reg.targets.map (·.2) = List.range 4 ++ goneAll ∧
      (∀ o ∈ List.range 4, (goneP.reg.obj o).upd = false) ∧ ∀ o ∈ goneAll, (goneP.reg.obj o).upd = true) ∧
    (goneP.reg.targets.get "/b/app" = some 15 ∧ goneP.reg.targets.get "/b/a.o" = some 11 ∧
      goneP.reg.targets.get "/s/old/h.h" = some 9 ∧ goneP.reg.targets.get "/s/old" = some 8 ∧
      "/b/a.o" ∈ (goneP.reg.obj 15).deps ∧ "/s/old/h.h" ∈ (goneP.reg.obj 11).deps ∧ "/s/old" ∈ (goneP.reg.obj 9).deps ∧
      goneL.m.kind 8 = .dir ∧ (goneP.reg.obj 8).tgt = "/s/old") ∧
    ((recurseUpdate (fun p => p) goneP.reg id Solver.idOrder 50 [] none 15 (some 1)).isOk = true ∧
      (prepared goneP (fun p => p) 15 50 1).2.2.2 = 1 ∧
      (evalCache goneP (fun p => p) goneFs 50 goneAll []).isOk = true ∧
      (updateNeeds (fun p => p) goneP.reg (updIf goneP (fun p => p) goneFs [] 50) 50 noMarks).isOk = true) ∧
    (goneRun.isSome = true ∧ goneRun.all (fun s => s.sol.unfinished = 0 ∧ s.sol.verdict = true)) ∧
    ((evalCache progP (fun p => p) delFs 50 progAll []).isOk = true ∧
      (updateNeeds (fun p => p) progP.reg (updIf progP (fun p => p) delFs [] 50) 50 noMarks).isOk = true ∧
      delRun.isSome = true ∧ delRun.all (fun s => s.sol.unfinished = 0 ∧ s.sol.verdict = true)) := by
  decide +kernel

theorem goneSite_sane : goneSite.env.Sane := listEnv_sane (by decide +kernel) (by decide +kernel)

theorem goneParts_fit : progParts.Fit goneSite licantReg "lh" "/b/app" goneFiles [] where
  room := room_licant (fun _ => rfl) ["/s/old", "/s", "/b", "/"] (by decide +kernel) (by decide +kernel) (by decide +kernel)
    (by decide +kernel) (by decide) (by decide +kernel)
  files := by decide +kernel
  homes := fun _ _ => ⟨rfl, rfl⟩
  outputs := by decide +kernel
  free := fun p hp => licant_free (fun _ => rfl) (by revert p; decide +kernel)
  raws := by decide +kernel
  ins := by decide +kernel
  extras := by intro f hf; cases hf
  depends := by intro f hf; cases hf
  set := by
    refine ⟨licant_free (fun _ => rfl) (by decide +kernel), by decide +kernel, by decide +kernel, fun f hf => ⟨?_, ?_⟩⟩
    · show f ≠ _
      revert f
      decide +kernel
    · have hp : parent f ∈ ["/s/old", "/s", "/b", "/"] := by revert f; decide +kernel
      rintro ⟨i, _, h⟩
      have := anc_mem (A := ["/s/old", "/s", "/b", "/"]) (p := f) (by decide +kernel) hp i
      change _ = anc f i at h
      rw [← h] at this
      revert this
      decide +kernel

attribute [local irreducible] progL progL1 prog1 prog2 goneL goneL1 gone1 gone2

theorem gone_program : Program goneSite goneL progParts "lh" "/b/app" progOpts 15 goneFiles [] := by
  obtain ⟨⟨h1, h2, h3⟩, _⟩ := gone_facts
  rw [← h3]
  exact And.left (parts_program (L := ⟨licantReg, fun _ => false, fun _ => none⟩) (o1 := progOpts) (L1 := goneL1) goneSite_sane goodD_licantReg
    goneParts_fit
    (by have := okD_eq (d := ⟨licantReg, fun _ => false, fun _ => none⟩) h1; unfold gone1 at this; rw [this]; unfold goneL1 gone1; rfl)
    (by have := okD_eq (d := ⟨licantReg, fun _ => false, fun _ => none⟩) h2; unfold gone2 at this; rw [this]; unfold goneL gone2; rfl))

theorem gone_all : ∀ o, o ∈ goneAll ↔ Registered goneP.reg o ∧ (goneP.reg.obj o).upd = true := by
  obtain ⟨_, ⟨hn, hl, hb, hu⟩, _⟩ := gone_facts
  intro o
  rw [registered_iff_mem hn, hl, List.mem_append]
  refine ⟨fun h => ⟨Or.inr h, hu o h⟩, ?_⟩
  rintro ⟨h | h, h'⟩
  · rw [hb o h] at h'; cases h'
  · exact h

def goneB : Invocation goneP (fun p => p) 15 goneFs [] :=
  invocationOf 50 1 goneAll gone_all gone_facts.2.2.2.1.2.2.1 gone_facts.2.2.2.1.2.2.2 gone_facts.2.2.2.1.1 gone_facts.2.2.2.1.2.1

/-- **C153 violated**: the directory `/s/old` with the header `/s/old/h.h` has been removed; the dependency file of `a.c` still lists the header.
Every successful build makes the directory again, in every project with these targets; and there are such builds. -/
theorem C153_violated : goneSite.env.Sane ∧ Program goneSite goneL progParts "lh" "/b/app" progOpts 15 goneFiles [] ∧
    goneSite.hdrs "/b/a.d" = ["/s/old/h.h"] ∧
    (∀ {α : Type} (P : Proj α), goneL.Is P → (∀ p q, q ∈ P.parents p → IsAnc q p) → ∀ (fs : FS α) (cache : FileCache), Accurate P fs cache →
      ∀ (B : Invocation P goneSite.env.canon 15 fs cache) (clock : Nat) (tr : List (Ev α)) (s : St α), B.Run clock tr s → s.Succeeded →
        (s.fs "/s/old").isSome) ∧
    goneFs "/s/old" = none ∧ ∃ s, goneB.Run 10 goneTr s ∧ s.Succeeded := by
  refine ⟨goneSite_sane, gone_program, by decide +kernel, ?_, rfl, ?_⟩
  · rintro α P ⟨hreg, hkind, _⟩ hpar fs cache hacc B clock tr s hx hs
    obtain ⟨_, _, ⟨f1, f2, f3, f4, f5, f6, f7, f8, f9⟩, _⟩ := gone_facts
    change goneL.m.reg.targets.get _ = _ at f1 f2 f3 f4
    change _ ∈ (goneL.m.reg.obj _).deps at f5 f6 f7
    obtain ⟨hS, _⟩ := gone_program.good.sound goneSite_sane P hreg hkind hpar
    rw [← hreg] at f1 f2 f3 f4 f5 f6 f7
    have hroot : Registered P.reg 15 := ⟨_, f1⟩
    have hcl : Closure goneSite.env.canon P.reg 15 8 :=
      .tail (.tail (.single ⟨_, f5, Or.inl f2⟩) ⟨_, f6, Or.inl f3⟩) ⟨_, f7, Or.inl f4⟩
    obtain ⟨i, w, _, hi, _, hf⟩ := Succeeded.finished hS hroot hx hs hcl
    have := (beliefs hS hroot hacc hx).2 w i 8 hf hi (by rw [hkind]; exact f8)
    rw [show P.path 8 = "/s/old" by rw [Proj.path, hreg]; exact f9] at this
    exact this
  · obtain ⟨_, _, _, _, ⟨h1, h2⟩, _⟩ := gone_facts
    obtain ⟨s, hs⟩ := Option.isSome_iff_exists.1 h1
    rw [hs] at h2
    exact ⟨s, run_iff.2 hs, by simpa [St.Succeeded, Solver.St.returned] using h2⟩

def delB : Invocation progP (fun p => p) 14 delFs [] :=
  invocationOf 50 1 progAll prog_all gone_facts.2.2.2.2.2.1 gone_facts.2.2.2.2.2.2.1
    prog_facts.2.2.2.1 prog_facts.2.2.2.2.1

/-- Non-vacuity of C153_partial: the header `/s/h.h` is deleted and the program is built; the unit `a` is compiled and its dependency file
written, the unit `b` is not compiled. -/
example : ∃ s, delB.Run 10 progTr s ∧ s.Succeeded ∧ ∀ xa ya xb, Names progSite.env progL.m "/b/a.o" xa → Names progSite.env progL.m "/b/a.d" ya →
    Names progSite.env progL.m "/b/b.o" xb → xa ∈ delB.commands progTr ∧ ya ∈ delB.commands progTr ∧ xb ∉ delB.commands progTr := by
  obtain ⟨_, _, _, _, _, _, _, h1, h2⟩ := gone_facts
  obtain ⟨s, hs⟩ := Option.isSome_iff_exists.1 h1
  rw [hs] at h2
  have hx : delB.Run 10 progTr s := run_iff.2 hs
  have hsu : s.Succeeded := by simpa [St.Succeeded, Solver.St.returned] using h2
  have h4 : Core.get progSite.env.canon progL.m.reg "/s/h.h" = .ok 8 := prog_facts.2.2.1.2.2.2.1
  obtain ⟨_, _, h⟩ := C153_partial progSite_sane prog_program (P := progP) ⟨rfl, rfl, rfl⟩ (by intro p q h; cases h) prog_upToDate
    (v := ("/s/a.c", "/b/a.o", "/b/a.d")) (by simp [progParts]) (h := "/s/h.h") (by decide +kernel) (get_ok.1 h4)
    prog_facts.2.2.1.2.2.2.2.1 (accurate_nil _ _) hx
  refine ⟨s, hx, hsu, fun xa ya xb ha hy hb => ?_⟩
  obtain ⟨c1, c2⟩ := (h ("/s/a.c", "/b/a.o", "/b/a.d") (by simp [progParts]) xa ya ha hy).1 hsu (by decide +kernel)
  refine ⟨c1, c2, fun hc => ?_⟩
  obtain ⟨_, y, hcomp⟩ := prog_program.units ("/s/b.c", "/b/b.o", "/b/b.d") (by simp [progParts])
  exact prog_unused ((h ("/s/b.c", "/b/b.o", "/b/b.d") (by simp [progParts]) xb y hb hcomp.depNames).2 prog_selfContained hc)

end Licant.Cxx
