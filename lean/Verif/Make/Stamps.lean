/-
Files with any time stamps (C135).
-/
import Verif.Make.Props
import Verif.Make.History

set_option autoImplicit false

namespace Licant.Make
open Licant.Py Licant.Core Relation

variable {α : Type} {P : Proj α} {canon : String → String}

/-! ### Specification -/

/-- The file at `p` is an input of the file target `o`. -/
def Reads (P : Proj α) (canon : String → String) (o : Nat) (p : String) : Prop :=
  Registered P.reg o ∧ P.kind o = .file ∧ ∃ o', InputOf P canon o o' ∧ P.path o' = p

/-- `Stamped P canon fs t`: the file system `fs` at time `t` is the result of some history of
* a first checkout without built files, with any time stamps, also in the future,
* files that are put in place of others, or are new, with any time stamp (as by `cp -p`, `mv`, `tar` or on another computer) that
  is later than those of the built files which read them,
* deletions of anything, the passing of time,
* builds of any targets, with any caches, that may end (or be killed) at any point between two events; their commands write
  what they should. -/
inductive Stamped (P : Proj α) (canon : String → String) : FS α → Nat → Prop
  | checkout {fs t} : Pristine P fs → Stamped P canon fs t
  | put {fs t} (p : String) (e : Entry α) : Stamped P canon fs t → ¬ IsProduct P p →
      (∀ o b, Reads P canon o p → fs (P.path o) = some b → b.mtime < e.mtime) → Stamped P canon (setFile fs p e) t
  | delete {fs t} (p : String) : Stamped P canon fs t → Stamped P canon (fun q => if q = p then none else fs q) t
  | wait {fs t} : Stamped P canon fs t → Stamped P canon fs (t + 1)
  | build {fs t root cache tr s} (B : Invocation P canon root fs cache) : Stamped P canon fs t →
      Registered P.reg root → B.Run (t + 1) tr s → Faithful B (t + 1) tr → Stamped P canon s.fs s.clock

/-! ### Proofs -/

theorem stamps_le {root : Nat} {fs0 : FS α} {cache0 : FileCache} {B : Invocation P canon root fs0 cache0} {clock0 : Nat}
    {tr : List (Ev α)} {s : St α} (h : B.Run clock0 tr s) :
    ∀ p e, s.fs p = some e → fs0 p = some e ∨ e.mtime ≤ s.clock := by
  induction h with
  | nil => exact fun p e h => Or.inl h
  | @snoc tr s e s' hx hst ih =>
    have hc := step_clock hst
    have old : ∀ p x, s.fs p = some x → fs0 p = some x ∨ x.mtime ≤ s'.clock := fun p x hp =>
      (ih p x hp).imp_right (le_trans · hc)
    intro p x hp
    cases fsStep hst with
    | same hfs _ => rw [hfs] at hp; exact old p x hp
    | write _ _ _ _ hfs =>
      rw [hfs] at hp
      simp only [setFile] at hp
      split at hp
      · cases hp; exact Or.inr hc
      · exact old p x hp
    | mkdir _ _ _ _ hfs =>
      rw [hfs] at hp
      simp only [makedirs] at hp
      split at hp
      · rename_i y hy; cases hp; exact old p _ hy
      · split at hp
        · cases hp; exact Or.inr hc
        · cases hp

/-- built files do not have time stamps in the future -/
theorem Stamped.old {fs : FS α} {t : Nat} (h : Stamped P canon fs t) :
    ∀ o e, Registered P.reg o → P.kind o = .file → fs (P.path o) = some e → e.mtime ≤ t := by
  induction h with
  | checkout h => intro o e ho hk he; rw [h o ho hk] at he; cases he
  | put p e' _ hp _ ih =>
    intro o e ho hk he
    have hne : P.path o ≠ p := fun h => hp ⟨o, ho, hk, h⟩
    simp only [setFile, hne, if_false] at he
    exact ih o e ho hk he
  | delete p _ ih =>
    intro o e ho hk he
    simp only at he
    split at he
    · cases he
    · exact ih o e ho hk he
  | wait _ ih => exact fun o e ho hk he => le_trans (ih o e ho hk he) (Nat.le_succ _)
  | build B _ _ hx _ ih =>
    intro o e ho hk he
    rcases stamps_le hx _ _ he with h | h
    · exact le_trans (ih o e ho hk h) (le_trans (Nat.le_succ _) (clock_le hx))
    · exact h

theorem Stamped.consist (hS : Sound P canon) (hF : Functional P canon) {fs : FS α} {t : Nat}
    (h : Stamped P canon fs t) : Consist P canon fs := by
  induction h with
  | checkout h =>
    intro o e ho hk he
    rw [h o ho hk] at he; cases he
  | @put fs t p e0 h hp hnew ih =>
    intro o e ho hk he hin
    have hne : P.path o ≠ p := fun h => hp ⟨o, ho, hk, h⟩
    simp only [setFile, hne, if_false] at he
    have hin' : ∀ o', InputOf P canon o o' → P.path o' ≠ p := by
      intro o' hio hpe
      obtain ⟨e', h1, h2⟩ := hin o' hio
      simp only [setFile, hpe, if_true] at h1
      cases h1
      have := hnew o e ⟨ho, hk, o', hio, hpe⟩ he
      omega
    have := ih o e ho hk he (by
      intro o' hio
      obtain ⟨e', h1, h2⟩ := hin o' hio
      simp only [setFile, hin' o' hio, if_false] at h1
      exact ⟨e', h1, h2⟩)
    rw [hF o (contents (setFile fs p e0)) (contents fs) (by
      intro o' hio
      simp [contents, setFile, hin' o' hio])]
    rw [← this]
    simp [contents, setFile, hne]
  | @delete fs t p h ih =>
    intro o e ho hk he hin
    simp only at he
    split at he
    · cases he
    · rename_i hne
      have hin' : ∀ o', InputOf P canon o o' → P.path o' ≠ p := by
        intro o' hio hpe
        obtain ⟨e', h1, _⟩ := hin o' hio
        simp [hpe] at h1
      have := ih o e ho hk he (by
        intro o' hio
        obtain ⟨e', h1, h2⟩ := hin o' hio
        simp only [hin' o' hio, if_false] at h1
        exact ⟨e', h1, h2⟩)
      rw [hF o (contents (fun q => if q = p then none else fs q)) (contents fs) (by
        intro o' hio
        simp [contents, hin' o' hio])]
      rw [← this]
      simp [contents, hne]
  | wait _ ih => exact ih
  | @build fs t root cache tr s B h hroot hx hfa ih =>
    intro o e ho hk he hin
    by_cases hw : Written B tr o
    · exact written_content hS hroot hF hx hfa o hw
    · have hsame := unwritten hS hroot hx ho (Or.inl hk) hw
      rw [hsame] at he
      have hold := h.old o e ho hk he
      have hsame' : ∀ o', InputOf P canon o o' → s.fs (P.path o') = fs (P.path o') := by
        intro o' hio
        refine unwritten hS hroot hx hio.registered hio.kind ?_
        rintro ⟨j, v, hm, hj⟩
        obtain ⟨t', v', h1, h2⟩ := written_file hx j v o' hm hj
        obtain ⟨e', h3, h4⟩ := hin o' hio
        rw [h1] at h3; cases h3
        simp only at h4
        omega
      have := ih o e ho hk he (by
        intro o' hio
        obtain ⟨e', h1, h2⟩ := hin o' hio
        rw [hsame' o' hio] at h1
        exact ⟨e', h1, h2⟩)
      rw [hF o (contents s.fs) (contents fs) (by
        intro o' hio; unfold contents; rw [hsame' o' hio])]
      rw [← this]
      unfold contents
      rw [hsame]

/-- **C135 violated**, for every project: nothing is out of date; then the source `x` is replaced by any other file whose time
stamp is not later than those of the files that read it.  Then no build calls any update function, and the files stay
as they are, with what was made of the old contents. -/
theorem C135_violated (hS : Sound P canon) {root : Nat} (hroot : Registered P.reg root) (hk : P.kind root ≠ .other)
    {fs1 : FS α} (hup : ¬ NeedsWork P canon (fileinfo fs1) root) {x : Nat} (hxr : Registered P.reg x) (hxk : P.kind x = .source)
    {e : Entry α} (ht : ∀ o b, Reads P canon o (P.path x) → fs1 (P.path o) = some b → e.mtime ≤ b.mtime)
    {cache : FileCache} (hacc : Accurate P (setFile fs1 (P.path x) e) cache)
    {B : Invocation P canon root (setFile fs1 (P.path x) e) cache} {clock : Nat} {tr : List (Ev α)} {s : St α}
    (hx : B.Run clock tr s) : B.updates tr = [] ∧ B.commands tr = [] ∧ s.fs = setFile fs1 (P.path x) e := by
  have hother : ∀ o, Registered P.reg o → o ≠ x → setFile fs1 (P.path x) e (P.path o) = fs1 (P.path o) := by
    intro o ho hne
    have : P.path o ≠ P.path x := fun h => hne (path_inj hS ho hxr h)
    simp [setFile, this]
  have hnw : ¬ NeedsWork P canon (fileinfo (setFile fs1 (P.path x) e)) root := by
    rintro ⟨o, ho, hood⟩
    have hreg := closure_registered hroot ho
    have hup' : ¬ OutOfDate P canon (fileinfo fs1) o := fun h => hup ⟨o, ho, h⟩
    have key : P.kind o = .file ∨ P.kind o = .source → False := by
      intro hko
      have h1 : (P.force o = true ∨ (fileinfo (setFile fs1 (P.path x) e) (P.path o)).exist = false ∨
          ∃ o', InputOf P canon o o' ∧ (fileinfo (setFile fs1 (P.path x) e) (P.path o')).mtime >
            (fileinfo (setFile fs1 (P.path x) e) (P.path o)).mtime) := by
        unfold OutOfDate at hood
        rcases hko with h | h <;> rw [h] at hood <;> exact hood
      have h2 : ¬ (P.force o = true ∨ (fileinfo fs1 (P.path o)).exist = false ∨
          ∃ o', InputOf P canon o o' ∧ (fileinfo fs1 (P.path o')).mtime > (fileinfo fs1 (P.path o)).mtime) := by
        unfold OutOfDate at hup'
        rcases hko with h | h <;> rw [h] at hup' <;> exact hup'
      have nosrc : P.kind o = .source → ∀ o', ¬ InputOf P canon o o' := by
        intro hks o' hin
        cases hin with
        | direct hd hk' => have := hS.srcDeps o o' (Or.inl hks) hd; rcases hk' with h | h <;> rw [h] at this <;> cases this
        | through hd hk' _ => have := hS.srcDeps o _ (Or.inl hks) hd; rw [hk'] at this; cases this
      rcases h1 with h1 | h1 | ⟨o', hin, h1⟩
      · exact h2 (Or.inl h1)
      · by_cases hox : o = x
        · subst hox; simp [fileinfo, setFile] at h1
        · rw [fileinfo_congr (hother o hreg hox)] at h1
          exact h2 (Or.inr (Or.inl h1))
      · have hko' : P.kind o = .file := by
          rcases hko with h | h
          · exact h
          · exact absurd hin (nosrc h o')
        have hox : o ≠ x := by rintro rfl; rw [hxk] at hko'; cases hko'
        rw [fileinfo_congr (hother o hreg hox)] at h1
        by_cases hox' : o' = x
        · subst hox'
          have hex : (fileinfo fs1 (P.path o)).exist = true := by
            by_contra h; exact h2 (Or.inr (Or.inl (by simpa using h)))
          rw [fileinfo_exist] at hex
          obtain ⟨b, hb⟩ := Option.isSome_iff_exists.1 hex
          have := ht o b ⟨hreg, hko', o', hin, rfl⟩ hb
          simp [fileinfo, setFile, hb] at h1
          omega
        · rw [fileinfo_congr (hother o' hin.registered hox')] at h1
          exact h2 (Or.inr (Or.inr ⟨o', hin, h1⟩))
    cases hko : P.kind o with
    | file => exact key (Or.inl hko)
    | source => exact key (Or.inr hko)
    | dir =>
      have hox : o ≠ x := by rintro rfl; rw [hxk] at hko; cases hko
      unfold OutOfDate at hood hup'
      rw [hko] at hood hup'
      simp only at hood hup'
      rw [fileinfo_congr (hother o hreg hox)] at hood
      exact hup' hood
    | fileset => unfold OutOfDate at hood; rw [hko] at hood; exact hood
    | other => exact closure_kind hS hk ho hko
  refine idle hS hroot hk ?_ ?_ hx
  · intro o ho hpo
    have h : ¬ OutOfDate P canon (fileinfo (setFile fs1 (P.path x) e)) o := fun h => hnw ⟨o, ho, h⟩
    rw [← fileinfo_exist]
    unfold OutOfDate at h
    rcases hpo with h' | h' | h' <;> rw [h'] at h <;> simp_all
  · rw [needsWork_congr hroot hacc]; exact hnw

/-- the demo project, built at the times 7 to 9; then a file with other contents is restored over the source, with its old
time stamp 4 -/
def demoFsOld : FS Nat := setFile demoS.fs (demo.path 0) ⟨4, some 6⟩

def demoBOld : Invocation demo id 4 demoFsOld [] := .of (lim := 10) (lim' := 10) (n := 1) _ demo_all rfl rfl rfl

theorem demoS_stamps {o : Nat} {b : Entry Nat} (hr : Reads demo id o (demo.path 0)) (hb : demoS.fs (demo.path o) = some b) :
    8 ≤ b.mtime ∧ b.mtime ≤ 9 := by
  obtain ⟨ho, hk, -⟩ := hr
  have := demo_reg_iff.1 ho
  have : o = 0 ∨ o = 1 ∨ o = 2 ∨ o = 3 ∨ o = 4 := by omega
  rcases this with rfl | rfl | rfl | rfl | rfl
  · cases hk
  · cases hk
  · have h : (demoS.fs (demo.path 2)).map (·.mtime) = some 8 := by decide +kernel
    rw [hb] at h; simp only [Option.map_some, Option.some.injEq] at h; omega
  · have h : (demoS.fs (demo.path 3)).map (·.mtime) = some 8 := by decide +kernel
    rw [hb] at h; simp only [Option.map_some, Option.some.injEq] at h; omega
  · cases hk

/-- Witness for C135_violated: all its hypotheses hold of the restored file; the build succeeds and leaves `d/app` as it was
made from the file that is no longer there. -/
theorem C135_violated_witness :
    (Sound demo id ∧ ¬ NeedsWork demo id (fileinfo demoS.fs) 4 ∧
      ∀ o b, Reads demo id o (demo.path 0) → demoS.fs (demo.path o) = some b → 4 ≤ b.mtime) ∧
    ∃ s, demoBOld.Run 21 demoTr2 s ∧ s.Succeeded ∧ contents s.fs "a.c" = some 6 ∧ contents s.fs "d/app" = some 115 ∧
      demo.cmd 2 (contents s.fs) = 16 ∧ contents s.fs "d/a.o" = some 15 :=
  ⟨⟨demo_sound, demo_up_to_date, fun _ _ hr hb => le_trans (by decide) (demoS_stamps hr hb).1⟩,
    _, run_iff.2 rfl, ⟨rfl, rfl⟩, by decide +kernel, by decide +kernel, by decide +kernel, by decide +kernel⟩

/-- **C135**, what holds: as long as every file that is put in place is newer than the built files that read it, a successful
build leaves every file target of the closure with the contents that a successful build from scratch of the same sources
gives, whatever the time stamps are (in the checkouts they may lie in the future).
Missing: files that are not newer (`C135_violated`). -/
theorem C135_partial (hS : Sound P canon) (hF : Functional P canon) {root : Nat}
    (hroot : Registered P.reg root) (hk : P.kind root ≠ .other)
    {fs fs1 : FS α} {t t1 : Nat} (hH : Stamped P canon fs t) (h1 : Pristine P fs1)
    (hsrc : ∀ o, Closure canon P.reg root o → P.kind o = .source →
      contents fs1 (P.path o) = contents fs (P.path o))
    {cache cache1 : FileCache} (hacc : Accurate P fs cache) (hacc1 : Accurate P fs1 cache1)
    {B : Invocation P canon root fs cache} {B1 : Invocation P canon root fs1 cache1}
    {tr tr1 : List (Ev α)} {s s1 : St α}
    (hx : B.Run (t + 1) tr s) (hfa : Faithful B (t + 1) tr) (hp : Productive B tr) (hs : s.Succeeded)
    (hx1 : B1.Run t1 tr1 s1) (hfa1 : Faithful B1 t1 tr1) (hp1 : Productive B1 tr1)
    (hs1 : s1.Succeeded) {o : Nat} (ho : Closure canon P.reg root o) (hko : P.kind o = .file) :
    contents s.fs (P.path o) = contents s1.fs (P.path o) ∧
    contents s.fs (P.path o) = some (P.cmd o (contents s.fs)) := by
  have hc := fun o ho hko => consist_built hS hF (hH.consist hS hF) hroot hk hacc hx hfa hp hs (o := o) ho hko
  have hc1 := fun o ho hko => consist_built hS hF ((Stamped.checkout (canon := canon) (t := 0) h1).consist hS hF) hroot hk hacc1 hx1
    hfa1 hp1 hs1 (o := o) ho hko
  refine ⟨contents_unique hS hF hc hc1 ?_ hroot o ho hko, hc o ho hko⟩
  intro o' ho' hk'
  have hr' := closure_registered hroot ho'
  have := hsrc o' ho' hk'
  unfold contents at this ⊢
  rw [source_unchanged hS hroot hx hr' hk', source_unchanged hS hroot hx1 hr' hk', this]

theorem demo_pristine : Pristine demo demoFs := by
  intro o ho hk
  have := demo_reg_iff.1 ho
  have : o = 0 ∨ o = 1 ∨ o = 2 ∨ o = 3 ∨ o = 4 := by omega
  rcases this with rfl | rfl | rfl | rfl | rfl <;> first | rfl | cases hk

theorem demo_not_product : ¬ IsProduct demo "a.c" := by
  rintro ⟨o, ho, hk, hp⟩
  have := demo_reg_iff.1 ho
  have : o = 0 ∨ o = 1 ∨ o = 2 ∨ o = 3 ∨ o = 4 := by omega
  rcases this with rfl | rfl | rfl | rfl | rfl
  · cases hk
  · cases hk
  · revert hp; decide
  · revert hp; decide
  · cases hk

/-- the source, newer than what was built from it, and dated 20 when the clock says 9 -/
theorem demo_stamped : Stamped demo id demoFs3 9 := by
  have h0 : Stamped demo id demoFs 6 := .checkout demo_pristine
  have h1 : Stamped demo id demoS.fs demoS.clock := .build demoB h0 demo_root demoS_run
    (faithful_of (by decide +kernel))
  have hclk : demoS.clock = 9 := by decide +kernel
  rw [hclk] at h1
  exact .put "a.c" _ h1 demo_not_product fun o b hr hb => lt_of_le_of_lt (demoS_stamps hr hb).2 (by decide)

/-- Non-vacuity of C135_partial: build at time 9 of a source dated 20. -/
example : ∃ s, Stamped demo id demoFs3 9 ∧ demoB3.Run (9 + 1) demoTr3 s ∧ s.Succeeded ∧
    Faithful demoB3 (9 + 1) demoTr3 ∧ Productive demoB3 demoTr3 ∧ contents s.fs "d/app" = some 116 :=
  ⟨_, demo_stamped, run_iff.2 rfl, ⟨rfl, rfl⟩, faithful_of (by decide +kernel), productive_of (by decide +kernel),
    by decide +kernel⟩

/-- the histories of C35 are among these -/
theorem History.stamped {fs : FS α} {t : Nat} (h : History P canon fs t) : Stamped P canon fs t := by
  induction h with
  | checkout _ h => exact .checkout h
  | edit p d h hp ih =>
    refine .put p _ ih.wait hp ?_
    intro o b _ hb
    exact Nat.lt_succ_of_le (h.old _ _ hb)
  | delete p _ ih => exact .delete p ih
  | wait _ ih => exact .wait ih
  | build B _ hroot hx hfa ih => exact .build B ih hroot hx hfa

end Licant.Make
