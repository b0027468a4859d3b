/-
Builds after the build script was changed.  C148.
-/
import Verif.Make.History

set_option autoImplicit false

namespace Licant.Make
open Licant.Py Licant.Core Relation

variable {α : Type} {canon : String → String}

/-- The file target `o'` of the project `P'` has the same path and the same command as some file
target of `P`.  Its dependencies may be others. -/
def SameRule (P P' : Proj α) (o' : Nat) : Prop :=
  ∃ o, Registered P.reg o ∧ P.kind o = .file ∧ P.path o = P'.path o' ∧ P.cmd o = P'.cmd o'

/-- `Revisions canon P fs t`: as `History`, but the build script may be changed too.  `fs` is the
file system at time `t`, `P` the project the script describes then.  At a change of the script, from
`P` to `P'`, every file target of `P'` must either have no file or have the path and the
command of a file target of `P` (`SameRule`): whoever changes a rule removes its product. -/
inductive Revisions (canon : String → String) : Proj α → FS α → Nat → Prop
  | checkout {P fs t} : Sound P canon → Functional P canon → (∀ p e, fs p = some e → e.mtime ≤ t) →
      Pristine P fs → Revisions canon P fs t
  | edit {P fs t} (p : String) (d : Option α) : Revisions canon P fs t → ¬ IsProduct P p →
      Revisions canon P (setFile fs p ⟨t + 1, d⟩) (t + 1)
  | delete {P fs t} (p : String) : Revisions canon P fs t →
      Revisions canon P (fun q => if q = p then none else fs q) t
  | wait {P fs t} : Revisions canon P fs t → Revisions canon P fs (t + 1)
  | build {P fs t root cache tr s} (B : Invocation P canon root fs cache) : Revisions canon P fs t →
      Registered P.reg root → B.Run (t + 1) tr s → Faithful B (t + 1) tr →
      Revisions canon P s.fs s.clock
  | script {P fs t} (P' : Proj α) : Revisions canon P fs t → Sound P' canon → Functional P' canon →
      (∀ o', Registered P'.reg o' → P'.kind o' = .file →
        fs (P'.path o') = none ∨ SameRule P P' o') →
      Revisions canon P' fs t

theorem Revisions.old {P : Proj α} {fs : FS α} {t : Nat} (h : Revisions canon P fs t) :
    ∀ p e, fs p = some e → e.mtime ≤ t := by
  induction h with
  | checkout _ _ h _ => exact h
  | edit p d _ _ ih =>
    intro q e he
    simp only [setFile] at he
    split at he
    · cases he; exact le_refl _
    · exact le_trans (ih q e he) (Nat.le_succ _)
  | delete p _ ih =>
    intro q e he
    simp only at he
    split at he
    · cases he
    · exact ih q e he
  | wait _ ih => exact fun p e he => le_trans (ih p e he) (Nat.le_succ _)
  | build B _ _ hx _ ih => exact mtimes_le hx (fun p e he => le_trans (ih p e he) (Nat.le_succ _))
  | script _ _ _ _ _ ih => exact ih

theorem Revisions.sound {P : Proj α} {fs : FS α} {t : Nat} (h : Revisions canon P fs t) :
    Sound P canon ∧ Functional P canon := by
  induction h with
  | checkout h1 h2 _ _ => exact ⟨h1, h2⟩
  | edit _ _ _ _ ih => exact ih
  | delete _ _ ih => exact ih
  | wait _ ih => exact ih
  | build _ _ _ _ _ ih => exact ih
  | script _ _ h1 h2 _ _ => exact ⟨h1, h2⟩

/-- Every built file was made from a state `g` of the files that agrees with the present one on those
inputs that are not newer. -/
def Traced (P : Proj α) (canon : String → String) (fs : FS α) : Prop :=
  ∀ o e, Registered P.reg o → P.kind o = .file → fs (P.path o) = some e →
    ∃ g, contents fs (P.path o) = some (P.cmd o g) ∧
      ∀ o' e', InputOf P canon o o' → fs (P.path o') = some e' → e'.mtime ≤ e.mtime →
        g (P.path o') = contents fs (P.path o')

theorem Traced.consist {P : Proj α} (hF : Functional P canon) {fs : FS α} (h : Traced P canon fs) :
    Consist P canon fs := by
  intro o e ho hk he hin
  obtain ⟨g, h1, h2⟩ := h o e ho hk he
  rw [h1, hF o g (contents fs) ?_]
  intro o' hio
  obtain ⟨e', h3, h4⟩ := hin o' hio
  exact h2 o' e' hio h3 h4

/-- a change of the script, if the products of changed commands are removed -/
theorem Traced.script {P P' : Proj α} (hF : Functional P canon) {fs : FS α} (hc : Traced P canon fs)
    (h : ∀ o', Registered P'.reg o' → P'.kind o' = .file →
      fs (P'.path o') = none ∨ SameRule P P' o') : Traced P' canon fs := by
  classical
  intro o' e ho' hk' he
  rcases h o' ho' hk' with hn | ⟨o, ho, hk, hpath, hcmd⟩
  · rw [hn] at he; cases he
  · rw [← hpath] at he ⊢
    rw [← hcmd]
    obtain ⟨g, h1, h2⟩ := hc o e ho hk he
    refine ⟨fun p => if ∃ x, InputOf P canon o x ∧ P.path x = p then g p else contents fs p, ?_, ?_⟩
    · rw [h1]
      congr 1
      refine hF o _ _ ?_
      intro x hx
      rw [if_pos ⟨x, hx, rfl⟩]
    · intro x' e' _ he' hle
      simp only
      split
      · rename_i hx
        obtain ⟨x, hx, hp⟩ := hx
        rw [← hp] at he' ⊢
        exact h2 x e' hx he' hle
      · rfl

theorem Revisions.traced {P : Proj α} {fs : FS α} {t : Nat} (h : Revisions canon P fs t) :
    Traced P canon fs := by
  induction h with
  | checkout _ _ _ h =>
    intro o e ho hk he
    rw [h o ho hk] at he; cases he
  | @edit P fs t p d h hp ih =>
    intro o e ho hk he
    have hne : P.path o ≠ p := fun h => hp ⟨o, ho, hk, h⟩
    simp only [setFile, hne, if_false] at he
    have hold := h.old _ _ he
    obtain ⟨g, h1, h2⟩ := ih o e ho hk he
    refine ⟨g, by rw [← h1]; simp [contents, setFile, hne], ?_⟩
    intro o' e' hio he' hle
    have hne' : P.path o' ≠ p := by
      intro hpe
      simp only [setFile, hpe, if_true] at he'
      cases he'
      simp only at hle
      omega
    simp only [setFile, hne', if_false] at he'
    rw [h2 o' e' hio he' hle]
    simp [contents, setFile, hne']
  | @delete P fs t p h ih =>
    intro o e ho hk he
    simp only at he
    split at he
    · cases he
    · rename_i hne
      obtain ⟨g, h1, h2⟩ := ih o e ho hk he
      refine ⟨g, by rw [← h1]; simp [contents, hne], ?_⟩
      intro o' e' hio he' hle
      simp only at he'
      split at he'
      · cases he'
      · rename_i hne'
        rw [h2 o' e' hio he' hle]
        simp [contents, hne']
  | wait _ ih => exact ih
  | @build P fs t root cache tr s B h hroot hx hfa ih =>
    obtain ⟨hS, hF⟩ := h.sound
    intro o e ho hk he
    by_cases hw : Written B tr o
    · exact ⟨contents s.fs, written_content hS hroot hF hx hfa o hw, fun _ _ _ _ _ => rfl⟩
    · have hsame := unwritten hS hroot hx ho (Or.inl hk) hw
      rw [hsame] at he
      have hold := h.old _ _ he
      obtain ⟨g, h1, h2⟩ := ih o e ho hk he
      refine ⟨g, by rw [← h1]; unfold contents; rw [hsame], ?_⟩
      intro o' e' hio he' hle
      have hsame' : s.fs (P.path o') = fs (P.path o') := by
        refine unwritten hS hroot hx hio.registered hio.kind ?_
        rintro ⟨j, v, hm, hj⟩
        obtain ⟨t', v', h3, h4⟩ := written_file hx j v o' hm hj
        rw [h3] at he'; cases he'
        simp only at hle
        omega
      rw [hsame'] at he'
      rw [h2 o' e' hio he' hle]
      unfold contents
      rw [hsame']
  | script P' h _ _ hr ih => exact ih.script h.sound.2 hr

/-- C148 (`_partial`: changed rules are not noticed, so this needs the products of changed rules to be
removed): after any history of edits, deletions, builds and changes of the script in which the
products of new or changed commands did not exist at the time of the change, a successful build leaves
every file target of the closure with the contents that a successful build from scratch of the
project as it is described now gives. -/
theorem C148_partial {P : Proj α} {root : Nat} (hroot : Registered P.reg root)
    (hk : P.kind root ≠ .other) {fs fs1 : FS α} {t t1 : Nat} (hH : Revisions canon P fs t)
    (h1 : ∀ p e, fs1 p = some e → e.mtime ≤ t1) (h1' : Pristine P fs1)
    (hsrc : ∀ o, Closure canon P.reg root o → P.kind o = .source →
      contents fs1 (P.path o) = contents fs (P.path o))
    {cache cache1 : FileCache} (hacc : Accurate P fs cache) (hacc1 : Accurate P fs1 cache1)
    {B : Invocation P canon root fs cache} {B1 : Invocation P canon root fs1 cache1}
    {tr tr1 : List (Ev α)} {s s1 : St α}
    (hx : B.Run (t + 1) tr s) (hfa : Faithful B (t + 1) tr) (hp : Productive B tr) (hs : s.Succeeded)
    (hx1 : B1.Run (t1 + 1) tr1 s1) (hfa1 : Faithful B1 (t1 + 1) tr1) (hp1 : Productive B1 tr1)
    (hs1 : s1.Succeeded) {o : Nat} (ho : Closure canon P.reg root o) (hko : P.kind o = .file) :
    contents s.fs (P.path o) = contents s1.fs (P.path o) := by
  obtain ⟨hS, hF⟩ := hH.sound
  have hc := fun o ho hko => consist_built hS hF (hH.traced.consist hF) hroot hk hacc hx hfa hp hs (o := o) ho hko
  have hc1 := fun o ho hko => built_contents hS hF (History.checkout (canon := canon) h1 h1') hroot hk
    hacc1 hx1 hfa1 hp1 hs1 (o := o) ho hko
  refine contents_unique hS hF hc hc1 ?_ hroot o ho hko
  intro o' ho' hk'
  have hr' := closure_registered hroot ho'
  have := hsrc o' ho' hk'
  unfold contents at this ⊢
  rw [source_unchanged hS hroot hx hr' hk', source_unchanged hS hroot hx1 hr' hk', this]

/-- the inputs of a target do not depend on the commands -/
theorem inputOf_cmd {P : Proj α} (cmd' : Nat → (String → Option α) → α) {o o' : Nat} :
    InputOf { P with cmd := cmd' } canon o o' ↔ InputOf P canon o o' := by
  constructor <;> intro h
  · induction h with
    | direct h1 h2 => exact .direct h1 h2
    | through h1 h2 _ ih => exact .through h1 h2 ih
  · induction h with
    | direct h1 h2 => exact .direct h1 h2
    | through h1 h2 _ ih => exact .through h1 h2 ih

/-- C148: whatever commands the script gives after a successful build of `root`, as long as paths,
kinds and dependencies stay, the next `makefile` of `root` runs no command and changes no file. -/
theorem C148_unnoticed {P : Proj α} {root : Nat} {fs0 : FS α} {cache0 : FileCache} {clock0 : Nat}
    {B : Invocation P canon root fs0 cache0} {tr : List (Ev α)} {s : St α}
    (hS : Sound P canon) (hroot : Registered P.reg root)
    (hk : P.kind root ≠ .other) (hacc : Accurate P fs0 cache0)
    (hnf : ∀ o, Closure canon P.reg root o → P.force o = false)
    (hsrc : ∀ o, Closure canon P.reg root o → P.kind o = .source → (fs0 (P.path o)).isSome)
    (ht : ∀ p e, fs0 p = some e → e.mtime ≤ clock0)
    (hx : B.Run clock0 tr s) (hp : Productive B tr) (hs : s.Succeeded)
    (cmd' : Nat → (String → Option α) → α)
    (B' : Invocation { P with cmd := cmd' } canon root s.fs [])
    {clock' : Nat} {tr' : List (Ev α)} {s' : St α} (hx' : B'.Run clock' tr' s') :
    B'.commands tr' = [] ∧ s'.fs = s.fs := by
  obtain ⟨hex, _, hnw⟩ := C33_up_to_date hS hroot hk hacc hnf hsrc ht hx hp hs
  have hS' : Sound { P with cmd := cmd' } canon :=
    ⟨hS.nodup, hS.consistent, hS.acyclic, hS.upd, hS.srcDeps, hS.fileDeps, hS.ancestors⟩
  refine (idle hS' hroot hk hex ?_ hx').2
  rintro ⟨o, ho, hood⟩
  refine (hnw [] (Or.inl rfl)).1 ⟨o, ho, ?_⟩
  unfold OutOfDate at hood ⊢
  simp only at hood
  cases hkk : P.kind o <;> simp only [hkk] at hood ⊢
  all_goals first | exact hood | skip
  all_goals
    rcases hood with h | h | ⟨o', h1, h2⟩
    · exact Or.inl h
    · exact Or.inr (Or.inl h)
    · exact Or.inr (Or.inr ⟨o', (inputOf_cmd cmd').1 h1, h2⟩)
  
/-! ### a concrete case -/

/-- the demo project with another command for `d/app` -/
def demoNew : Proj Nat :=
  { demo with
    cmd := fun o f => if o = 2 then (f "a.c").getD 0 + 10 else
      if o = 3 then (f "d/a.o").getD 0 + 1000 else 0 }

theorem demoNew_sound : Sound demoNew id :=
  ⟨demo_sound.nodup, demo_sound.consistent, demo_sound.acyclic, demo_sound.upd, demo_sound.srcDeps,
    demo_sound.fileDeps, demo_sound.ancestors⟩

theorem demoNew_functional : Functional demoNew id := by
  intro o f f' h
  show (if o = 2 then (f "a.c").getD 0 + 10 else if o = 3 then (f "d/a.o").getD 0 + 1000 else 0) =
    (if o = 2 then (f' "a.c").getD 0 + 10 else if o = 3 then (f' "d/a.o").getD 0 + 1000 else 0)
  by_cases h2 : o = 2
  · subst h2
    have := h 0 (.direct (demo_dep.2 (by decide)) (Or.inr rfl))
    simp only [if_true]
    have h' : f "a.c" = f' "a.c" := this
    rw [h']
  · by_cases h3 : o = 3
    · subst h3
      have h' : f "d/a.o" = f' "d/a.o" := h 2 (.direct (demo_dep.2 (by decide)) (Or.inl rfl))
      simp [h']
    · simp [h2, h3]

/-- the new project on the files the old one has built -/
def demoBN : Invocation demoNew id 4 demoS.fs [] := .of (lim := 10) (lim' := 10) (n := 1) _ demo_all rfl rfl rfl

/-- the new project from scratch -/
def demoBN0 : Invocation demoNew id 4 demoFs [] := .of (lim := 10) (lim' := 10) (n := 1) _ demo_all rfl rfl rfl

def demoTrN0 : List (Ev Nat) :=
  [.sched (.start 0 0), .sched (.finish 0 0 .ok), .sched (.start 0 2), .sched (.finish 0 2 .ok),
   .sched (.start 0 3), .tick, .write 3 15, .sched (.finish 0 3 .ok),
   .sched (.start 0 4), .write 4 1015, .tick, .sched (.finish 0 4 .ok),
   .sched (.start 0 1), .sched (.finish 0 1 .ok)]

/-- the product of the changed rule is removed -/
def demoFsN : FS Nat := fun q => if q = "d/app" then none else demoS.fs q

def demoBN1 : Invocation demoNew id 4 demoFsN [] := .of (lim := 10) (lim' := 10) (n := 1) _ demo_all rfl rfl rfl

def demoTrN1 : List (Ev Nat) :=
  [.sched (.start 0 0), .sched (.finish 0 0 .ok), .sched (.start 0 2), .sched (.finish 0 2 .ok),
   .sched (.start 0 3), .sched (.finish 0 3 .ok),
   .sched (.start 0 4), .write 4 1015, .tick, .sched (.finish 0 4 .ok),
   .sched (.start 0 1), .sched (.finish 0 1 .ok)]

/-- C148 is violated: the source is checked out and built; then the command of `d/app` is changed.
The next build succeeds, in a new process, faithfully, and leaves the old `d/app`; a build of the
same sources from scratch gives another one. -/
theorem C148_violated : ∃ s s1,
    History demo id demoS.fs demoS.clock ∧ Sound demoNew id ∧ Functional demoNew id ∧
    demoBN.Run (demoS.clock + 1) demoTr2 s ∧ Faithful demoBN (demoS.clock + 1) demoTr2 ∧
    Productive demoBN demoTr2 ∧ s.Succeeded ∧
    demoBN0.Run 7 demoTrN0 s1 ∧ Faithful demoBN0 7 demoTrN0 ∧ Productive demoBN0 demoTrN0 ∧
    s1.Succeeded ∧
    contents s.fs "d/app" = some 115 ∧ contents s1.fs "d/app" = some 1015 := by
  refine ⟨_, _, ?_, demoNew_sound, demoNew_functional, run_iff.2 rfl, faithful_of (by decide +kernel),
    productive_of (by decide +kernel), ⟨rfl, rfl⟩, run_iff.2 rfl, faithful_of (by decide +kernel),
    productive_of (by decide +kernel), ⟨rfl, rfl⟩, by decide +kernel, by decide +kernel⟩
  refine .build demoB (.checkout (fun p e h => Nat.le_of_lt_succ (demo_old p e h)) ?_) demo_root demoS_run
    (faithful_of (by decide +kernel))
  intro o ho hk
  have := demo_reg_iff.1 ho
  have : o = 0 ∨ o = 1 ∨ o = 2 ∨ o = 3 ∨ o = 4 := by omega
  rcases this with rfl | rfl | rfl | rfl | rfl <;> first | rfl | cases hk

/-- Non-vacuity of C148_partial: `d/app` is removed when its command is changed, and made again. -/
example : ∃ t s, Revisions id demoNew demoFsN t ∧ demoBN1.Run (t + 1) demoTrN1 s ∧
    Faithful demoBN1 (t + 1) demoTrN1 ∧ Productive demoBN1 demoTrN1 ∧ s.Succeeded ∧
    contents s.fs "d/app" = some 1015 := by
  have h0 : Revisions id demo demoFs 6 := by
    refine .checkout demo_sound demo_functional (fun p e h => Nat.le_of_lt_succ (demo_old p e h)) ?_
    intro o ho hk
    have := demo_reg_iff.1 ho
    have : o = 0 ∨ o = 1 ∨ o = 2 ∨ o = 3 ∨ o = 4 := by omega
    rcases this with rfl | rfl | rfl | rfl | rfl <;> first | rfl | cases hk
  have h1 : Revisions id demo demoFsN demoS.clock :=
    .delete "d/app" (.build demoB h0 demo_root demoS_run (faithful_of (by decide +kernel)))
  have h2 : Revisions id demoNew demoFsN demoS.clock := by
    refine .script demoNew h1 demoNew_sound demoNew_functional ?_
    intro o ho hk
    have := demo_reg_iff.1 ho
    have : o = 0 ∨ o = 1 ∨ o = 2 ∨ o = 3 ∨ o = 4 := by omega
    rcases this with rfl | rfl | rfl | rfl | rfl
    · cases hk
    · cases hk
    · refine Or.inr ⟨2, ho, hk, rfl, rfl⟩
    · exact Or.inl rfl
    · cases hk
  exact ⟨_, _, h2, run_iff.2 rfl, faithful_of (by decide +kernel), productive_of (by decide +kernel),
    ⟨rfl, rfl⟩, by decide +kernel⟩

/-- Non-vacuity of C148_unnoticed. -/
example : demoBN.commands demoTr2 = [] ∧ ∃ s, demoBN.Run 10 demoTr2 s :=
  have hx : demoBN.Run 10 demoTr2 _ := run_iff.2 rfl
  ⟨(C148_unnoticed (fs0 := demoFs) (B := demoB) demo_sound demo_root (by decide) (accurate_nil _ _)
    (fun _ _ => rfl) demo_sources (fun p e h => le_of_lt (demo_old p e h)) demoS_run
    (productive_of (by decide +kernel)) ⟨rfl, rfl⟩ demoNew.cmd demoBN hx).1, _, hx⟩

end Licant.Make
