/-
Examples for C96 and C97.
-/
import Verif.Cxx.Program

set_option autoImplicit false

namespace Licant.Cxx
open Licant.Py Licant.Core Licant.Make Relation
open Licant.Modules (Val Opts Toolchain Lib IsModule)

/-! ### Tools -/

/-- an environment without symbolic links in which exactly the files `l` exist -/
def listEnv (l : List String) : Env where
  canon := fun p => p
  ex := fun p => decide (p ∈ l)
  home := fun p => p
  glob := fun _ => []

theorem listEnv_sane {l : List String} (hr : ∀ p ∈ [".", "/", "//"], p ∈ l) (hc : ∀ p ∈ l, parent p ∈ l) :
    (listEnv l).Sane where
  idem _ := rfl
  home _ := rfl
  roots p h := by
    rw [← String.ofList_toList (s := p)]
    have : String.ofList p.toList ∈ l := by
      rcases h with h | h | h <;> rw [h] <;> exact hr _ (by decide)
    simpa [listEnv] using this
  exCanon _ h := h
  exCanonAnc _ _ := rfl
  exParent p h := by
    simp only [listEnv, decide_eq_true_eq] at h ⊢
    exact hc p h
  up p i h := by
    rw [← parent_anc]
    simp only [listEnv, decide_eq_true_eq] at h ⊢
    exact hc _ h
  canonParent p i _ := parent_anc p i

theorem licant_resolves {E : Env} (hid : ∀ p, E.canon p = p) {n : String} {o : Nat} (hn : n ∉ licantNames) :
    ¬ Resolves E.canon licantReg.reg n o := by
  rintro (h | ⟨_, h⟩)
  · exact hn (licantReg_get h).2.2
  · rw [hid] at h; exact hn (licantReg_get h).2.2

/-- `Room` in the default core after `import licant`, by looking at a list `G` of directories -/
theorem room_licant {E : Env} (hid : ∀ p, E.canon p = p) {F A : List String} (G : List String) (hG : ∀ g ∈ G, parent g ∈ G)
    (hF : ∀ f ∈ F, parent f ∈ G) (hn : ∀ f ∈ F ++ A, f ∉ G) (hs : ∀ f ∈ F ++ G, '*' ∉ f.toList)
    (hA : ∀ r ∈ A, E.ex r = true) (hl : ∀ f ∈ F ++ A ++ G, f ∉ licantNames) : Room E licantReg F A := by
  have hmd : ∀ f ∈ F, ∀ q, MissingDir E (E.canon f) q → q ∈ G := by
    rintro f hf q ⟨i, _, rfl⟩
    rw [hid, hid]
    exact anc_mem hG (hF f hf) i
  refine ⟨?_, hA, ?_, ?_, fun f hf x hx => absurd hx (licant_resolves hid (hl f (by simp [hf]))),
    fun f hf x hx => absurd hx (licant_resolves hid (hl f (by simp [hf]))), ?_⟩
  · intro f hf
    have := hs f (by simp [hf])
    exact ⟨this, by rw [hid]; exact this, fun q hq => hs q (by simp [hmd f hf q hq])⟩
  · intro f hf g hg q hq
    have h1 := hmd g hg q hq
    rw [hid]
    refine ⟨fun e => hn f hf (e ▸ h1), ?_⟩
    rintro ⟨i, hi⟩
    exact hn f hf (hi ▸ anc_mem hG (hG _ h1) i)
  · intro f _ b hb
    rw [licantReg_kind] at hb; cases hb
  · intro f hf
    refine ⟨?_, ?_⟩
    · rintro a q (h | h) _ <;> rw [licantReg_kind] at h <;> cases h
    · intro i o _ h
      rw [hid, hid, or_self] at h
      exact absurd h (licant_resolves hid (hl _ (by simp [anc_mem hG (hF f hf) i])))

/-! ### C96: `application("app", target="/b/app", sources=["a.c", "b.c"], builddir="/b")` in the script `/s/l.py` -/

/-- the files of this application -/
def taskParts : Parts where
  headers := []
  uis := []
  mocs := []
  us := [("/s/a.c", "/b/s/a.o", "/b/s/a.d"), ("/s/b.c", "/b/s/b.o", "/b/s/b.d")]
  depends := []
  extra := []

def taskFiles : List String := ["/s/a.c", "/s/b.c", "/b/s/a.o", "/b/s/b.o", "/b/s/a.d", "/b/s/b.d", "/b/app"]

theorem taskParts_of : PartsOf demoSite taskR taskParts := by
  refine ⟨"/b", [], [], ["/s/a.c", "/s/b.c"], [], [], rfl, rfl, .nil, rfl, rfl, rfl, rfl, rfl, ?_, ?_, ?_, rfl⟩
  · decide +kernel
  · decide +kernel
  · decide +kernel

theorem licant_free {E : Env} (hid : ∀ p, E.canon p = p) {p : String} (hp : p ∉ licantNames) : Free E licantReg p := by
  intro n o hn
  rw [hid, hid] at hn
  subst hn
  exact licant_resolves hid hp

theorem taskParts_fit : taskParts.Fit demoSite licantReg "app__module__local_headers__" "/b/app" taskFiles [] where
  room := room_licant (fun _ => rfl) ["/s", "/b/s", "/b", "/"] (by decide +kernel) (by decide +kernel) (by decide +kernel)
    (by decide +kernel) (by decide) (by decide +kernel)
  files := by decide +kernel
  homes := by intro m hm; cases hm
  outputs := by decide +kernel
  free := fun p hp => licant_free (fun _ => rfl) (by revert p; decide +kernel)
  raws := by intro f hf; cases hf
  ins := by decide +kernel
  extras := by intro f hf; cases hf
  depends := by intro f hf; cases hf
  set := by
    refine ⟨licant_free (fun _ => rfl) (by decide +kernel), by decide +kernel, by decide +kernel, fun f hf => ⟨?_, ?_⟩⟩
    · show f ≠ _
      revert f
      decide +kernel
    · have hp : parent f ∈ ["/s", "/b/s", "/b", "/"] := by revert f; decide +kernel
      rintro ⟨i, _, h⟩
      have := anc_mem (A := ["/s", "/b/s", "/b", "/"]) (p := f) (by decide +kernel) hp i
      change _ = anc f i at h
      rw [← h] at this
      revert this
      decide +kernel

/-- The hypotheses of C96 hold for this application (that `task` succeeds is shown in `Task.lean`): nothing is in the default
core but what licant puts there, its files fit, and they are those of the final options. -/
example : demoSite.env.Sane ∧ GoodD demoSite.env demoReg.m ∧ Linked "application" executableCommand ∧
    finalOpts stdTools id 10 10 (fun _ => 0) taskLib (taskModule "app" "application") none (setDefaults stdTools []) =
      .ok (taskLib, taskR) ∧ PartsOf demoSite taskR taskParts ∧
    taskParts.Fit demoSite demoReg.m (taskModule "app" "application" ++ "__local_headers__") "/b/app" taskFiles [] :=
  ⟨demoSite_sane, goodD_licantReg, .application, taskDemo_opts, taskParts_of, taskParts_fit⟩

/-! ### C97: two units, a header found in the dependency file of the first one, a local header -/

def progFiles : List String :=
  ["/s/a.c", "/s/b.c", "/s/h.h", "/s/l.h", "/b/a.o", "/b/b.o", "/b/a.d", "/b/b.d", "/b/l.h", "/b/app"]

def progSite : Site where
  env := listEnv ([".", "/", "//", "/s", "/b"] ++ progFiles)
  lim := 50
  uni := fun _ => false
  file := fun p => if p = "/b/a.d" then some "/b/a.o: /s/a.c /s/h.h\n".toList else
    if p = "/b/b.d" then some "/b/b.o: /s/b.c\n".toList else none

def progParts : Parts where
  headers := [("/s/l.h", "/b/l.h")]
  uis := []
  mocs := []
  us := [("/s/a.c", "/b/a.o", "/b/a.d"), ("/s/b.c", "/b/b.o", "/b/b.d")]
  depends := []
  extra := []

def progOpts : CxxOpts where
  toolchain := { cxx := "g++", cc := "gcc", ar := "ar" }
  incopt := ""
  defopt := ""
  ldscripts := ""
  cxxFlags := ""
  ccFlags := ""
  ldFlags := ""
  ldSrcsAdd := ""
  optimize := ""

/-- the value, if there is one -/
def okD {ε α : Type} (d : α) : Except ε α → α
  | .ok a => a
  | .error _ => d

theorem okD_eq {ε α : Type} {d : α} {e : Except ε α} (h : e.isOk = true) : e = .ok (okD d e) := by
  cases e with
  | ok a => rfl
  | error _ => cases h

def prog1 : Except Modules.Err LReg := registerParts progSite ⟨licantReg, fun _ => false, fun _ => none⟩ "lh" progParts progOpts progOpts

def progL1 : LReg := okD ⟨licantReg, fun _ => false, fun _ => none⟩ prog1

def prog2 : Except Modules.Err LReg := addFile progSite progL1 "/b/app" progParts.objects false fun t => .ok t

def progL : LReg := okD ⟨licantReg, fun _ => false, fun _ => none⟩ prog2

/-- the project -/
def progP : Proj Nat where
  reg := progL.m.reg
  kind := progL.m.kind
  force := progL.force
  upd := fun _ => .ok false
  cmd := fun _ _ => 0
  parents := fun _ => []

/-- the objects of the project; 0 to 3 are those of licant -/
def progAll : List Nat := List.range' 4 11

/-- everything is up to date -/
def progFs : FS Nat := fun p =>
  if p ∈ ["/s/a.c", "/s/b.c", "/s/h.h", "/s/l.h"] then some ⟨1, some 0⟩ else
  if p = "/b/l.h" then some ⟨2, some 0⟩ else
  if p ∈ ["/b/a.d", "/b/b.d"] then some ⟨3, some 0⟩ else
  if p ∈ ["/b/a.o", "/b/b.o"] then some ⟨4, some 0⟩ else
  if p = "/b/app" then some ⟨5, some 0⟩ else none

/-- then the header is edited -/
def progFs' : FS Nat := setFile progFs (progP.path 8) ⟨9, some 1⟩

/-- what `recurse_update` prepares, when it does -/
def prepared (P : Proj Nat) (canon : String → String) (root lim n : Nat) : List Nat × List Solver.DTarget × Solver.Graph × Nat :=
  okD ([], [], ⟨0, fun _ => 0, fun _ => [], []⟩, 0)
    (recurseUpdate canon P.reg id Solver.idOrder lim [] none root (some (n : Int)))

/-- an invocation from computed parts -/
def invocationOf {P : Proj Nat} {canon : String → String} {root : Nat} {fs : FS Nat} (lim n : Nat) (l : List Nat)
    (h0 : ∀ o, o ∈ l ↔ Registered P.reg o ∧ (P.reg.obj o).upd = true)
    (h1 : (evalCache P canon fs lim l []).isOk = true)
    (h2 : (updateNeeds canon P.reg (updIf P canon fs [] lim) lim noMarks).isOk = true)
    (h3 : (recurseUpdate canon P.reg id Solver.idOrder lim [] none root (some (n : Int))).isOk = true)
    (h4 : (prepared P canon root lim n).2.2.2 = n) :
    Invocation P canon root fs [] :=
  .of (lim := lim) (lim' := lim) (n := n) (objs := (prepared P canon root lim n).1)
    (ds := (prepared P canon root lim n).2.1) (g := (prepared P canon root lim n).2.2.1) l h0 (okD_eq (d := []) h1)
    (okD_eq (d := noMarks) h2) ((okD_eq h3).trans (by
      show Except.ok (prepared P canon root lim n) = _
      congr 1
      exact Prod.ext rfl (Prod.ext rfl (Prod.ext rfl h4))))

/-- one worker; 0: `/b/a.d`, 1: `/b/a.o`, 2: `/b/app`, 3: `/b/b.d`, 4: `/b/b.o`, 5: `/b/l.h`, 6 to 9: sources, 10: `lh` -/
def progTr : List (Ev Nat) :=
  [.sched (.start 0 6), .sched (.finish 0 6 .ok), .sched (.start 0 7), .sched (.finish 0 7 .ok),
   .sched (.start 0 8), .sched (.finish 0 8 .ok), .sched (.start 0 9), .sched (.finish 0 9 .ok),
   .sched (.start 0 5), .sched (.finish 0 5 .ok), .sched (.start 0 10), .sched (.finish 0 10 .ok),
   .sched (.start 0 0), .write 0 7, .sched (.finish 0 0 .ok), .sched (.start 0 3), .sched (.finish 0 3 .ok),
   .sched (.start 0 1), .write 1 7, .sched (.finish 0 1 .ok), .sched (.start 0 4), .sched (.finish 0 4 .ok),
   .sched (.start 0 2), .write 2 7, .sched (.finish 0 2 .ok)]

def progNeed (fs : FS Nat) : Nat → Option Bool :=
  (okD noMarks (updateNeeds (fun p => p) progP.reg (updIf progP (fun p => p) fs [] 50) 50 noMarks)).need

def progRun : Option (St Nat) :=
  let g := prepared progP (fun p => p) 14 50 1
  runEvs progP (progNeed progFs') g.1 g.2.2.1 ⟨Solver.init g.2.2.1 1, progFs', 10,
    okD [] (evalCache progP (fun p => p) progFs' 50 progAll [])⟩ progTr

def progGet (f : String) : Except Core.Err Nat := Core.get (fun p => p) progL.m.reg f

/-- everything that has to be computed -/
theorem prog_facts : (prog1.isOk = true ∧ prog2.isOk = true ∧ progL.m.reg.next - 1 = 14) ∧
    (progP.reg.targets.keys.Nodup ∧ progP.reg.targets.map (·.2) = List.range 4 ++ progAll ∧
      (∀ o ∈ List.range 4, (progP.reg.obj o).upd = false) ∧ ∀ o ∈ progAll, (progP.reg.obj o).upd = true) ∧
    ((∀ f ∈ ["/s/a.c", "/s/b.c", "/s/h.h", "/s/l.h"], progL.m.kind (okD 0 (progGet f)) = .source) ∧
      progGet "/b/app" = .ok 14 ∧ progP.kind 14 ≠ .other ∧ progGet "/s/h.h" = .ok 8 ∧ progP.kind 8 = .source ∧
      ∀ f ∈ ["/s/b.c", "/s/l.h"], okD 0 (progGet f) ≠ 8) ∧
    ((recurseUpdate (fun p => p) progP.reg id Solver.idOrder 50 [] none 14 (some 1)).isOk = true ∧
      (prepared progP (fun p => p) 14 50 1).2.2.2 = 1 ∧
      (∀ fs ∈ [progFs, progFs'], (evalCache progP (fun p => p) fs 50 progAll []).isOk = true ∧
        (updateNeeds (fun p => p) progP.reg (updIf progP (fun p => p) fs [] 50) 50 noMarks).isOk = true) ∧
      work progP.reg (progNeed progFs) 14 = .skips ∧
      progRun.isSome = true ∧ progRun.all (fun s => s.sol.unfinished = 0 ∧ s.sol.verdict = true)) := by
  decide +kernel

attribute [local irreducible] progL progL1 prog1 prog2

theorem prog_all : ∀ o, o ∈ progAll ↔ Registered progP.reg o ∧ (progP.reg.obj o).upd = true := by
  obtain ⟨_, ⟨hn, hl, hb, hu⟩, _⟩ := prog_facts
  intro o
  rw [registered_iff_mem hn, hl, List.mem_append]
  refine ⟨fun h => ⟨Or.inr h, hu o h⟩, ?_⟩
  rintro ⟨h | h, h'⟩
  · rw [hb o h] at h'; cases h'
  · exact h

/-- the build before the edit -/
def progB0 : Invocation progP (fun p => p) 14 progFs [] :=
  invocationOf 50 1 progAll prog_all (prog_facts.2.2.2.2.2.1 _ (by simp)).1 (prog_facts.2.2.2.2.2.1 _ (by simp)).2
    prog_facts.2.2.2.1 prog_facts.2.2.2.2.1

/-- the build after the edit -/
def progB : Invocation progP (fun p => p) 14 progFs' [] :=
  invocationOf 50 1 progAll prog_all (prog_facts.2.2.2.2.2.1 _ (by simp)).1 (prog_facts.2.2.2.2.2.1 _ (by simp)).2
    prog_facts.2.2.2.1 prog_facts.2.2.2.2.1

def progS : St Nat := progRun.getD (progB.start 10)

theorem progS_run : progB.Run 10 progTr progS ∧ progS.Succeeded := by
  have h : progRun = some progS := by
    obtain ⟨s, hs⟩ := Option.isSome_iff_exists.1 prog_facts.2.2.2.2.2.2.2.1
    simp [progS, hs]
  have h2 := prog_facts.2.2.2.2.2.2.2.2
  rw [h] at h2
  exact ⟨run_iff.2 h, by simpa [St.Succeeded, Solver.St.returned] using h2⟩

theorem progSite_sane : progSite.env.Sane := listEnv_sane (by decide +kernel) (by decide +kernel)

theorem progParts_fit : progParts.Fit progSite licantReg "lh" "/b/app" progFiles [] where
  room := room_licant (fun _ => rfl) ["/s", "/b", "/"] (by decide +kernel) (by decide +kernel) (by decide +kernel)
    (by decide +kernel) (by decide) (by decide +kernel)
  files := by decide +kernel
  homes := fun _ _ => ⟨rfl, rfl⟩
  outputs := by decide +kernel
  free := fun p hp => licant_free (fun _ => rfl) (by revert p; decide +kernel)
  raws := by decide +kernel
  ins := by decide +kernel
  extras := by intro f hf; cases hf
  depends := by intro f hf; cases hf
  set := by
    refine ⟨licant_free (fun _ => rfl) (by decide +kernel), by decide +kernel, by decide +kernel, fun f hf => ⟨?_, ?_⟩⟩
    · show f ≠ _
      revert f
      decide +kernel
    · have hp : parent f ∈ ["/s", "/b", "/"] := by revert f; decide +kernel
      rintro ⟨i, _, h⟩
      have := anc_mem (A := ["/s", "/b", "/"]) (p := f) (by decide +kernel) hp i
      change _ = anc f i at h
      rw [← h] at this
      revert this
      decide +kernel

theorem prog_program : Program progSite progL progParts "lh" "/b/app" progOpts 14 progFiles [] := by
  obtain ⟨⟨h1, h2, h3⟩, _⟩ := prog_facts
  rw [← h3]
  exact And.left (parts_program (L := ⟨licantReg, fun _ => false, fun _ => none⟩) (o1 := progOpts) (L1 := progL1) progSite_sane goodD_licantReg
    progParts_fit
    (by have := okD_eq (d := ⟨licantReg, fun _ => false, fun _ => none⟩) h1; unfold prog1 at this; rw [this]; unfold progL1 prog1; rfl)
    (by have := okD_eq (d := ⟨licantReg, fun _ => false, fun _ => none⟩) h2; unfold prog2 at this; rw [this]; unfold progL prog2; rfl))

theorem prog_source {f : String} {y : Nat} (hf : f ∈ ["/s/a.c", "/s/b.c", "/s/h.h", "/s/l.h"])
    (hy : Resolves progSite.env.canon progL.m.reg f y) : progL.m.kind y = .source := by
  have h : okD 0 (progGet f) = y := by
    have : progGet f = .ok y := get_ok.2 hy
    rw [this]; rfl
  rw [← h]
  exact prog_facts.2.2.1.1 f hf

theorem prog_selfContained : SelfContained progSite progL progParts where
  depends := rfl
  raw := fun f hf y hy => prog_source (by clear hy; revert f; decide +kernel) hy
  ins := fun u hu f hf => Or.inl fun y hy => prog_source (by clear hy; revert u f; decide +kernel) hy

theorem prog_sound : Sound progP (fun p => p) ∧ Registered progP.reg 14 :=
  ⟨(prog_program.good.sound progSite_sane progP rfl rfl (by intro p q h; cases h)).1,
    Resolves.registered (canon := fun p => p) (get_ok.1 prog_facts.2.2.1.2.1)⟩

theorem prog_upToDate : ¬ NeedsWork progP (fun p => p) (fileinfo progFs) 14 :=
  (need_closure prog_sound.1 prog_sound.2 prog_facts.2.2.1.2.2.1 progB0 (.refl)).2.1 prog_facts.2.2.2.2.2.2.1

/-- the unit `b` does not use the header -/
theorem prog_unused : ¬ UsedBy progSite progL progParts ("/s/b.c", "/b/b.o", "/b/b.d") 8 := by
  rintro ⟨f, hf, h⟩
  have hf' : f ∈ ["/s/b.c", "/s/l.h"] := by
    clear hf
    rcases h with h | ⟨m, hm, rfl⟩ | h | ⟨m, hm, _⟩
    · revert f; decide +kernel
    · revert m; decide +kernel
    · cases h
    · cases hm
  have h2 : progGet f = .ok 8 := get_ok.2 hf
  have h3 := prog_facts.2.2.1.2.2.2.2.2 f hf'
  rw [h2] at h3
  exact h3 rfl

/-- All hypotheses of C97: the header `/s/h.h` is the object 8 and used by the unit `a`, not by the unit `b`. -/
example : progSite.env.Sane ∧ Program progSite progL progParts "lh" "/b/app" progOpts 14 progFiles [] ∧ progL.Is progP ∧
    ¬ NeedsWork progP progSite.env.canon (fileinfo progFs) 14 ∧ Registered progP.reg 8 ∧ progP.kind 8 = .source ∧
    (∀ p e, progFs p = some e → e.mtime < 9) ∧ Accurate progP progFs' [] ∧ progB.Run 10 progTr progS ∧ progS.Succeeded ∧
    SelfContained progSite progL progParts ∧ UsedBy progSite progL progParts ("/s/a.c", "/b/a.o", "/b/a.d") 8 ∧
    ¬ UsedBy progSite progL progParts ("/s/b.c", "/b/b.o", "/b/b.d") 8 := by
  have h4 : Core.get progSite.env.canon progL.m.reg "/s/h.h" = .ok 8 := prog_facts.2.2.1.2.2.2.1
  refine ⟨progSite_sane, prog_program, ⟨rfl, rfl, rfl⟩, prog_upToDate, (get_ok.1 h4).registered, prog_facts.2.2.1.2.2.2.2.1, ?_,
    accurate_nil _ _, progS_run.1, progS_run.2, prog_selfContained, ⟨"/s/h.h", get_ok.1 h4, Or.inl (by decide +kernel)⟩, prog_unused⟩
  · intro p e h
    unfold progFs at h
    repeat' split at h
    all_goals cases h
    all_goals decide

end Licant.Cxx
