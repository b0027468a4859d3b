/-
C131: what else happens in the file system does not matter.  A build with time stamps of directories and other changes
does to its targets what a build without them does.
-/
import Verif.Make.World
import Verif.Make.Wellformed

set_option autoImplicit false

namespace Licant.Make
open Licant.Py Licant.Core Relation

variable {α : Type}

/-! ### simulation -/

/-- an entry without the time stamp if it is the path of a directory target -/
def absE (k : Kind) (e : Entry α) : Entry α := if k = .dir then ⟨0, none⟩ else e

/-- a status without the time stamp if it is the status of a directory target -/
def absI (k : Kind) (i : Info) : Info := if k = .dir then ⟨i.exist, 0⟩ else i

theorem absI_exist (k : Kind) (i : Info) : (absI k i).exist = i.exist := by unfold absI; split <;> rfl

variable {P : Proj α}

/-- the same for the targets, but for the time stamps of directories -/
def SameFs (P : Proj α) (fs fs' : FS α) : Prop :=
  ∀ o, Registered P.reg o → IsPath P o → (fs (P.path o)).map (absE (P.kind o)) = (fs' (P.path o)).map (absE (P.kind o))

def SameCache (P : Proj α) (c c' : FileCache) : Prop :=
  ∀ o, Registered P.reg o → IsPath P o → (c.get (P.path o)).map (absI (P.kind o)) = (c'.get (P.path o)).map (absI (P.kind o))

theorem SameFs.refl (fs : FS α) : SameFs P fs fs := fun _ _ _ => rfl

theorem SameFs.isSome {fs fs' : FS α} (h : SameFs P fs fs') {o : Nat} (ho : Registered P.reg o) (hp : IsPath P o) :
    (fs (P.path o)).isSome = (fs' (P.path o)).isSome := by
  have := congrArg Option.isSome (h o ho hp)
  simpa using this

theorem SameFs.eq {fs fs' : FS α} (h : SameFs P fs fs') {o : Nat} (ho : Registered P.reg o)
    (hk : P.kind o = .file ∨ P.kind o = .source) : fs (P.path o) = fs' (P.path o) := by
  have := h o ho (by rcases hk with hk | hk <;> simp [IsPath, hk])
  have e : absE (α := α) (P.kind o) = id := by
    funext x
    rcases hk with hk | hk <;> simp [absE, hk]
  simpa [e] using this

theorem SameFs.fileinfo {fs fs' : FS α} (h : SameFs P fs fs') {o : Nat} (ho : Registered P.reg o) (hp : IsPath P o) :
    absI (P.kind o) (fileinfo fs (P.path o)) = absI (P.kind o) (fileinfo fs' (P.path o)) := by
  by_cases hk : P.kind o = .dir
  · have := h.isSome ho hp
    simp only [absI, hk, if_true, fileinfo_exist, this]
  · have hk' : P.kind o = .file ∨ P.kind o = .source := by
      rcases hp with h1 | h1 | h1
      · exact Or.inl h1
      · exact Or.inr h1
      · exact absurd h1 hk
    rw [fileinfo_congr (h.eq ho hk')]

theorem SameCache.view {fs fs' : FS α} {c c' : FileCache} (h : SameFs P fs fs') (hc : SameCache P c c') {o : Nat}
    (ho : Registered P.reg o) (hp : IsPath P o) :
    absI (P.kind o) (view fs c (P.path o)) = absI (P.kind o) (view fs' c' (P.path o)) := by
  have h1 := hc o ho hp
  unfold Make.view
  cases e : c.get (P.path o) <;> cases e' : c'.get (P.path o) <;> rw [e, e'] at h1 <;> simp at h1 ⊢
  · exact h.fileinfo ho hp
  · exact h1

theorem SameCache.update {canon : String → String} (hS : Sound P canon) {fs fs' : FS α} {c c' : FileCache}
    (h : SameFs P fs fs') (hc : SameCache P c c') {x : Nat} (hx : Registered P.reg x) :
    SameCache P (updateInfo fs c (P.path x)) (updateInfo fs' c' (P.path x)) := by
  intro o ho hp
  simp only [updateInfo, Dict.get_set]
  by_cases e : P.path x = P.path o
  · have := path_inj hS hx ho e
    subst this
    simp [h.fileinfo ho hp]
  · simp only [e, if_false]
    exact hc o ho hp

theorem SameCache.getInfo {canon : String → String} (hS : Sound P canon) {fs fs' : FS α} {c c' : FileCache}
    (h : SameFs P fs fs') (hc : SameCache P c c') {x : Nat} (hx : Registered P.reg x) (hxp : IsPath P x) :
    SameCache P (Make.getInfo fs c (P.path x)).2 (Make.getInfo fs' c' (P.path x)).2 := by
  have h1 := hc x hx hxp
  unfold Make.getInfo
  cases e : c.get (P.path x) <;> cases e' : c'.get (P.path x) <;> rw [e, e'] at h1 <;> simp at h1 ⊢
  · exact SameCache.update hS h hc hx
  · exact hc

/-- The two states are the same for the targets. -/
structure Alike (P : Proj α) (s s' : St α) : Prop where
  sol : s.sol = s'.sol
  clock : s.clock = s'.clock
  fs : SameFs P s.fs s'.fs
  cache : SameCache P s.cache s'.cache
  plain : NoDirs P s.fs

theorem sameFs_setFile {canon : String → String} (hS : Sound P canon) {fs fs' : FS α} (h : SameFs P fs fs') {x : Nat}
    (e : Entry α) : SameFs P (setFile fs (P.path x) e) (setFile fs' (P.path x) e) := by
  have := hS
  intro o ho hp
  simp only [setFile]
  split
  · rfl
  · exact h o ho hp

theorem sameFs_makedirs {fs fs' : FS α} (h : SameFs P fs fs') (t : Nat) (p : String) :
    SameFs P (makedirs P fs t p) (makedirs P fs' t p) := by
  intro o ho hp
  have h1 := h o ho hp
  unfold makedirs
  cases e : fs (P.path o) <;> cases e' : fs' (P.path o) <;> rw [e, e'] at h1 <;> simp at h1
  simpa using h1

theorem plain_makedirs {canon : String → String} (hS : Sound P canon) {fs : FS α} (h : NoDirs P fs) {t b : Nat}
    (hb : Registered P.reg b) (hkb : P.kind b = .dir) : NoDirs P (makedirs P fs t (P.path b)) := by
  intro o ho hk e he
  have hn := not_made hS hb hkb ho hk
  unfold makedirs at he
  split at he
  · rename_i e' h'
    cases he
    exact h o ho hk _ h'
  · rw [if_neg hn] at he; cases he

/-- the end of a work function -/
theorem finish_alike {canon : String → String} (hS : Sound P canon) {need : Nat → Option Bool} {s s' : St α} (A : Alike P s s')
    {o : Nat} (ho : Registered P.reg o) {r : Solver.Ret} {p : FS α × FileCache}
    (h : finishEffect P need s o r = some p) :
    ∃ p', finishEffect P need s' o r = some p' ∧ SameFs P p.1 p'.1 ∧ SameCache P p.2 p'.2 ∧ NoDirs P p.1 := by
  unfold finishEffect at h ⊢
  cases hk : P.kind o with
  | dir =>
    have hp : IsPath P o := Or.inr (Or.inr hk)
    have hv := SameCache.view A.fs A.cache ho hp
    have hve : (view s.fs s.cache (P.path o)).exist = (view s'.fs s'.cache (P.path o)).exist := by
      rw [← absI_exist (P.kind o), hv, absI_exist]
    have hgi := SameCache.getInfo hS A.fs A.cache ho hp
    simp only [hk, getInfo_fst] at h ⊢
    rw [← hve]
    split at h
    · rename_i hex
      rw [if_pos hex]
      split at h
      · cases h
        rename_i hr
        exact ⟨_, if_pos hr, A.fs, hgi, A.plain⟩
      · cases h
    · rename_i hex
      rw [if_neg hex]
      have hsome := A.fs.isSome ho hp
      split at h
      · rename_i hnone
        cases h
        have hn' : s'.fs (P.path o) = none := by rw [hnone] at hsome; simpa using hsome.symm
        simp only [hn']
        rw [A.clock]
        have hfs := sameFs_makedirs A.fs s'.clock (P.path o)
        exact ⟨_, rfl, hfs, SameCache.update hS hfs hgi ho, plain_makedirs hS A.plain ho hk⟩
      · cases h
        refine ⟨(s'.fs, (getInfo s'.fs s'.cache (P.path o)).2), ?_, A.fs, hgi, A.plain⟩
        cases s'.fs (P.path o) <;> rfl
      · cases h
  | file =>
    simp only [hk] at h ⊢
    cases hw : work P.reg need o with
    | raises =>
      simp only [hw] at h ⊢
      split at h <;> cases h
      rename_i hr
      exact ⟨_, if_pos hr, A.fs, A.cache, A.plain⟩
    | skips =>
      simp only [hw] at h ⊢
      split at h <;> cases h
      rename_i hr
      exact ⟨_, if_pos hr, A.fs, A.cache, A.plain⟩
    | calls =>
      simp only [hw] at h ⊢
      split at h <;> cases h
      · rename_i hr
        exact ⟨_, if_pos hr, A.fs, A.cache, A.plain⟩
      · rename_i hr
        exact ⟨_, if_neg hr, A.fs, SameCache.update hS A.fs A.cache ho, A.plain⟩
  | source =>
    simp only [hk] at h ⊢
    cases hw : work P.reg need o with
    | raises =>
      simp only [hw] at h ⊢
      split at h <;> cases h
      rename_i hr
      exact ⟨_, if_pos hr, A.fs, A.cache, A.plain⟩
    | skips =>
      simp only [hw] at h ⊢
      split at h <;> cases h
      rename_i hr
      exact ⟨_, if_pos hr, A.fs, A.cache, A.plain⟩
    | calls =>
      simp only [hw] at h ⊢
      split at h <;> cases h
      rename_i hr
      exact ⟨_, if_pos hr, A.fs, SameCache.update hS A.fs A.cache ho, A.plain⟩
  | fileset =>
    simp only [hk] at h ⊢
    cases hw : work P.reg need o <;> simp only [hw] at h ⊢ <;>
    · split at h <;> cases h
      rename_i hr
      exact ⟨_, if_pos hr, A.fs, A.cache, A.plain⟩
  | other =>
    simp only [hk] at h ⊢
    cases hw : work P.reg need o with
    | raises =>
      simp only [hw] at h ⊢
      split at h <;> cases h
      rename_i hr
      exact ⟨_, if_pos hr, A.fs, A.cache, A.plain⟩
    | skips =>
      simp only [hw] at h ⊢
      split at h <;> cases h
      rename_i hr
      exact ⟨_, if_pos hr, A.fs, A.cache, A.plain⟩
    | calls =>
      simp only [hw] at h ⊢
      cases h
      exact ⟨_, rfl, A.fs, A.cache, A.plain⟩

theorem step_alike {canon : String → String} (hS : Sound P canon) {need : Nat → Option Bool} {objs : List Nat} {g : Solver.Graph}
    (hreg : ∀ i o : Nat, objs[i]? = some o → Registered P.reg o) {s s' s1 : St α} (A : Alike P s s') {e : Ev α}
    (h : step P need objs g s e = some s1) : ∃ s1', step P need objs g s' e = some s1' ∧ Alike P s1 s1' := by
  cases e with
  | tick =>
    cases h
    exact ⟨_, rfl, A.sol, by simp [A.clock], A.fs, A.cache, A.plain⟩
  | write i v =>
    simp only [step] at h ⊢
    split at h
    · rename_i o ho
      split at h
      · rename_i hc
        cases h
        rw [if_pos ⟨A.sol ▸ hc.1, hc.2⟩]
        refine ⟨_, rfl, A.sol, A.clock, ?_, A.cache, ?_⟩
        · simp only [A.clock]
          exact sameFs_setFile hS A.fs _
        · intro x hx hk e he
          simp only [setFile] at he
          split at he
          · cases he; simp
          · exact A.plain x hx hk e he
      · cases h
    · cases h
  | sched e =>
    simp only [step] at h ⊢
    rw [← A.sol]
    split at h
    · cases h
    · rename_i sol hsol
      split at h
      · rename_i w i r
        split at h
        · rename_i o ho
          split at h
          · rename_i p hp
            cases h
            obtain ⟨p', h1, h2, h3, h4⟩ := finish_alike hS A (hreg i o ho) hp
            simp only [h1]
            exact ⟨_, rfl, rfl, A.clock, h2, h3, h4⟩
          · cases h
        · cases h
      · rename_i hne
        cases h
        refine ⟨_, rfl, rfl, A.clock, A.fs, A.cache, A.plain⟩

theorem touch_alike {s s' : St α} (A : Alike P s s') (up : String → String) (t : Nat) (l : List String) (old : FS α) :
    Alike P { s with fs := touchDirs up t l old s.fs } s' := by
  refine ⟨A.sol, A.clock, ?_, A.cache, ?_⟩
  · intro o ho hp
    rw [← A.fs o ho hp]
    simp only
    rcases touchDirs_cases (up := up) t l old s.fs (P.path o) with h | ⟨m, h, h'⟩
    · rw [h]
    · rw [h', h]
      by_cases hk : P.kind o = .dir
      · simp [absE, hk]
      · exact absurd rfl (A.plain o ho (by
          rcases hp with h1 | h1 | h1
          · exact Or.inl h1
          · exact Or.inr h1
          · exact absurd h1 hk) _ h)
  · intro o ho hk e he
    simp only at he
    rcases touchDirs_cases (up := up) t l old s.fs (P.path o) with h | ⟨m, h, _⟩
    · rw [h] at he; exact A.plain o ho hk e he
    · exact absurd rfl (A.plain o ho hk _ h)

theorem change_alike {s s' : St α} (A : Alike P s s') {p : String} (hp : ∀ o, Registered P.reg o → IsPath P o → P.path o ≠ p)
    (t : Nat) (d : Option (Option α)) : Alike P { s with fs := change s.fs t p d } s' := by
  have key : ∀ o, Registered P.reg o → IsPath P o → change s.fs t p d (P.path o) = s.fs (P.path o) := by
    intro o ho hpo
    have := hp o ho hpo
    cases d <;> simp [change, setFile, this]
  refine ⟨A.sol, A.clock, ?_, A.cache, ?_⟩
  · intro o ho hpo
    simp only
    rw [key o ho hpo]
    exact A.fs o ho hpo
  · intro o ho hk e he
    simp only at he
    rw [key o ho (by rcases hk with h | h <;> simp [IsPath, h])] at he
    exact A.plain o ho hk e he

variable {canon : String → String} {root : Nat} {fs0 : FS α} {cache0 : FileCache}
  {B : Invocation P canon root fs0 cache0} {up : String → String} {clock0 : Nat} {s : St α} {tr : List (WEv α)}

/-- A build in a tidy world does to its targets what the same build does without the rest of the world. -/
theorem undisturbed (hS : Sound P canon) (hroot : Registered P.reg root) (hplain : NoDirs P fs0) (h : B.RunW up clock0 tr s)
    (ht : Tidy P tr) : ∃ s', B.Run clock0 (evs tr) s' ∧ Alike P s s' := by
  induction h with
  | nil => exact ⟨_, .nil, rfl, rfl, .refl _, fun _ _ _ => rfl, hplain⟩
  | @snoc tr s e s' hx hst ih =>
    obtain ⟨s1, h1, A⟩ := ih (fun p d hm => ht p d (by simp [hm]))
    cases e with
    | ev e =>
      obtain ⟨s2, h2, rfl⟩ := stepW_ev hst
      obtain ⟨s3, h3, A3⟩ := step_alike hS (fun i o => B.reg hS hroot) A h2
      refine ⟨s3, ?_, touch_alike A3 _ _ _ _⟩
      rw [evs_append, evs_ev]
      exact .snoc h1 h3
    | other p d =>
      cases hst
      refine ⟨s1, by simpa using h1, ?_⟩
      have := change_alike A (ht p d (by simp)) s.clock d
      exact touch_alike this up _ _ _

theorem outOfDate_alike {V V' : String → Info} {o : Nat} (ho : Registered P.reg o)
    (h : ∀ o, Registered P.reg o → IsPath P o → absI (P.kind o) (V (P.path o)) = absI (P.kind o) (V' (P.path o))) :
    OutOfDate P canon V o → OutOfDate P canon V' o := by
  have hm : ∀ x, Registered P.reg x → P.kind x = .file ∨ P.kind x = .source → V (P.path x) = V' (P.path x) := by
    intro x hx hk
    have := h x hx (by rcases hk with h | h <;> simp [IsPath, h])
    rcases hk with hk | hk <;> simpa [absI, hk] using this
  unfold OutOfDate
  cases hk : P.kind o with
  | file =>
    simp only
    rw [hm o ho (Or.inl hk)]
    rintro (h1 | h1 | ⟨o', h1, h2⟩)
    · exact Or.inl h1
    · exact Or.inr (Or.inl h1)
    · exact Or.inr (Or.inr ⟨o', h1, by rwa [← hm o' h1.registered h1.kind]⟩)
  | source =>
    simp only
    rw [hm o ho (Or.inr hk)]
    rintro (h1 | h1 | ⟨o', h1, h2⟩)
    · exact Or.inl h1
    · exact Or.inr (Or.inl h1)
    · exact Or.inr (Or.inr ⟨o', h1, by rwa [← hm o' h1.registered h1.kind]⟩)
  | dir =>
    simp only
    have := congrArg Info.exist (h o ho (Or.inr (Or.inr hk)))
    rw [absI_exist, absI_exist] at this
    rw [this]
    exact id
  | fileset => exact id
  | other => exact id

theorem needsWork_alike {V V' : String → Info} {o : Nat} (ho : Registered P.reg o)
    (h : ∀ o, Registered P.reg o → IsPath P o → absI (P.kind o) (V (P.path o)) = absI (P.kind o) (V' (P.path o))) :
    NeedsWork P canon V o → NeedsWork P canon V' o := by
  rintro ⟨x, h1, h2⟩
  exact ⟨x, h1, outOfDate_alike (closure_registered ho h1) h h2⟩

/-! ### C131 -/

/-- C131, the part that holds: no file target and no source is a directory.  A successful build leaves everything up to
date and the next build runs nothing and changes no target, although during both builds anybody creates, changes and
removes any files that are no targets, and the time stamps of directories change when files are created in them. -/
theorem C131_partial (hS : Sound P canon) (hroot : Registered P.reg root) (hk : P.kind root ≠ .other)
    (hacc : Accurate P fs0 cache0) (hnf : ∀ o, Closure canon P.reg root o → P.force o = false)
    (hsrc : ∀ o, Closure canon P.reg root o → P.kind o = .source → (fs0 (P.path o)).isSome)
    (ht : ∀ p e, fs0 p = some e → e.mtime ≤ clock0) (hplain : NoDirs P fs0)
    (hx : B.RunW up clock0 tr s) (htidy : Tidy P tr) (hp : Productive B (evs tr)) (hs : s.Succeeded) :
    (∀ o, Closure canon P.reg root o → IsPath P o → (s.fs (P.path o)).isSome) ∧
    (∀ o, Closure canon P.reg root o → P.kind o = .file → Fresh P canon s.fs o) ∧
    ∀ cache', cache' = [] ∨ cache' = s.cache → ∀ (B' : Invocation P canon root s.fs cache') (clock' : Nat)
      (tr' : List (WEv α)) (s' : St α), B'.RunW up clock' tr' s' → Tidy P tr' →
      B'.updates (evs tr') = [] ∧ B'.commands (evs tr') = [] ∧
      ∀ o, Registered P.reg o → P.kind o = .file ∨ P.kind o = .source → s'.fs (P.path o) = s.fs (P.path o) := by
  obtain ⟨s1, h1, A⟩ := undisturbed hS hroot hplain hx htidy
  have hs1 : s1.Succeeded := ⟨A.sol ▸ hs.1, A.sol ▸ hs.2⟩
  obtain ⟨hex, hfr, hnw⟩ := C33_up_to_date hS hroot hk hacc hnf hsrc ht h1 hp hs1
  have hex' : ∀ o, Closure canon P.reg root o → IsPath P o → (s.fs (P.path o)).isSome := fun o ho hpo => by
    rw [A.fs.isSome (closure_registered hroot ho) hpo]
    exact hex o ho hpo
  refine ⟨hex', ?_, ?_⟩
  · intro o ho hko
    obtain ⟨e, h2, h3⟩ := hfr o ho hko
    refine ⟨e, by rw [A.fs.eq (closure_registered hroot ho) (Or.inl hko)]; exact h2, ?_⟩
    intro o' e' hin he'
    rw [A.fs.eq hin.registered hin.kind] at he'
    exact h3 o' e' hin he'
  · intro cache' hc B' clock' tr' s' hx' ht'
    have hclean : ¬ NeedsWork P canon (view s.fs cache') root := by
      rcases hc with rfl | rfl
      · exact fun h => (hnw [] (Or.inl rfl)).1 (needsWork_alike hroot (fun o ho hpo => A.fs.fileinfo ho hpo) h)
      · exact fun h => (hnw s1.cache (Or.inr rfl)).1
          (needsWork_alike hroot (fun o ho hpo => SameCache.view A.fs A.cache ho hpo) h)
    obtain ⟨s2, h2, A2⟩ := undisturbed hS hroot A.plain hx' ht'
    obtain ⟨h3, h4, h5⟩ := idle hS hroot hk hex' hclean h2
    refine ⟨h3, h4, fun o ho hko => ?_⟩
    rw [A2.fs.eq ho hko, h5]

/-- the events of the demo, while other files come and go and `d` gets new time stamps -/
def worldTr : List (WEv Nat) :=
  [.ev (.sched (.start 0 0)), .ev (.sched (.finish 0 0 .ok)), .ev (.sched (.start 0 2)), .ev (.sched (.finish 0 2 .ok)),
   .ev (.sched (.start 0 3)), .ev .tick, .other "d/a.s" (some (some 3)), .ev (.write 3 15), .ev .tick, .other "d/a.s" none,
   .ev (.sched (.finish 0 3 .ok)), .ev (.sched (.start 0 4)), .ev (.write 4 115), .ev .tick, .other "d/core" (some (some 1)),
   .ev (.sched (.finish 0 4 .ok)), .ev (.sched (.start 0 1)), .ev (.sched (.finish 0 1 .ok))]

def worldUp (p : String) : String := if p = "d/a.s" ∨ p = "d/a.o" ∨ p = "d/app" ∨ p = "d/core" then "d" else "."

def worldS : St Nat := (runW demo worldUp demoB.need demoB.objs demoB.g (demoB.start 7) worldTr).getD (demoB.start 7)

/-- the build after `worldTr` -/
def worldB2 : Invocation demo id 4 worldS.fs [] := .of (lim := 10) (lim' := 10) (n := 1) _ demo_all rfl rfl rfl

theorem demo_path {o : Nat} (ho : Registered demo.reg o) : demo.path o ∈ ["a.c", "d", "d/a.o", "d/app", "all"] := by
  have := demo_reg_iff.1 ho
  have : o = 0 ∨ o = 1 ∨ o = 2 ∨ o = 3 ∨ o = 4 := by omega
  rcases this with rfl | rfl | rfl | rfl | rfl <;> decide

/-- Non-vacuity of C131: the directory is newer than everything in it, and nothing is built again. -/
example : demoB.RunW worldUp 7 worldTr worldS ∧ worldS.Succeeded ∧ (worldS.fs "d").map (·.mtime) = some 10 ∧
    (worldS.fs "d/a.o").map (·.mtime) = some 8 ∧
    ∀ clock' tr' s', worldB2.RunW worldUp clock' tr' s' → Tidy demo tr' → worldB2.commands (evs tr') = [] := by
  have hx : demoB.RunW worldUp 7 worldTr worldS := runW_iff.2 rfl
  have ht : Tidy demo worldTr := by
    intro p d hm o ho _ he
    have h1 := demo_path ho
    rw [he] at h1
    simp only [worldTr, List.mem_cons, List.not_mem_nil, or_false, reduceCtorEq, false_or, WEv.other.injEq] at hm
    rcases hm with ⟨rfl, _⟩ | ⟨rfl, _⟩ | ⟨rfl, _⟩ <;> revert h1 <;> decide
  have hpl : NoDirs demo demoFs := by
    intro o _ _ e he
    unfold demoFs at he
    split at he <;> cases he
    simp
  have hs : worldS.Succeeded := ⟨rfl, rfl⟩
  refine ⟨hx, hs, by decide +kernel, by decide +kernel, ?_⟩
  intro clock' tr' s' hx' ht'
  exact ((C131_partial demo_sound demo_root (by decide) (accurate_nil _ _) (fun _ _ => rfl) demo_sources
    (fun p e h => le_of_lt (demo_old p e h)) hpl hx ht (productive_of (by decide +kernel)) hs).2.2 [] (Or.inl rfl)
    worldB2 clock' tr' s' hx' ht').2.1

/-! ### C131 is false of the code -/

/-- `makefile("/s/x", deps=["/s"], …)` and `makefile("/s/y", deps=["/s/x"], …)`, when the directory `/s` exists -/
def dirReg : MReg :=
  ((noReg.add (makeObj "/s" []) .source).add (makeObj "/s/x" ["/s"]) .file).add (makeObj "/s/y" ["/s/x"]) .file

/-- this is what the two calls register -/
theorem dirReg_made : ∃ w1 w2, makefileG srcEnv 50 ⟨noReg, noReg⟩ "/s/x" ["/s"] false = .ok w1 ∧
    makefileG srcEnv 50 w1 "/s/y" ["/s/x"] false = .ok w2 ∧ w2.dflt.reg.targets = dirReg.reg.targets ∧
    ∀ o < 3, w2.dflt.reg.obj o = dirReg.reg.obj o ∧ w2.dflt.kind o = dirReg.kind o := by
  refine ⟨_, _, rfl, rfl, by decide +kernel, ?_⟩
  intro o ho
  have : o = 0 ∨ o = 1 ∨ o = 2 := by omega
  rcases this with rfl | rfl | rfl <;> exact ⟨rfl, rfl⟩

def dirProj : Proj Nat where
  reg := dirReg.reg
  kind := dirReg.kind
  force := fun _ => false
  upd := fun _ => .ok false
  cmd := fun _ _ => 7
  parents := fun _ => []

/-- only the directory exists -/
def dirFs : FS Nat := fun p => if p = "/s" then some ⟨1, none⟩ else none

theorem dir_registered {o : Nat} : Registered dirProj.reg o ↔ o < 3 := by
  constructor
  · rintro ⟨n, hn⟩
    change (((Dict.set [] "/s" 0).set "/s/x" 1).set "/s/y" 2).get n = some o at hn
    simp only [Dict.get_set] at hn
    split at hn
    · cases hn; omega
    · split at hn
      · cases hn; omega
      · split at hn
        · cases hn; omega
        · cases hn
  · intro h
    have : o = 0 ∨ o = 1 ∨ o = 2 := by omega
    rcases this with rfl | rfl | rfl
    · exact ⟨"/s", by decide +kernel⟩
    · exact ⟨"/s/x", by decide +kernel⟩
    · exact ⟨"/s/y", by decide +kernel⟩

theorem dir_all : ∀ o, o ∈ [0, 1, 2] ↔ Registered dirProj.reg o ∧ (dirProj.reg.obj o).upd = true := by
  intro o
  rw [dir_registered]
  constructor
  · intro h
    have h3 : o = 0 ∨ o = 1 ∨ o = 2 := by simpa using h
    rcases h3 with rfl | rfl | rfl <;> exact ⟨by omega, rfl⟩
  · rintro ⟨h, _⟩
    have h3 : o = 0 ∨ o = 1 ∨ o = 2 := by omega
    simpa using h3

def dirB : Invocation dirProj srcEnv.canon 2 dirFs [] := .of (lim := 10) (lim' := 10) (n := 1) _ dir_all rfl rfl rfl

def dirTr : List (WEv Nat) :=
  [.ev (.sched (.start 0 0)), .ev (.sched (.finish 0 0 .ok)), .ev (.sched (.start 0 1)), .ev (.write 1 7),
   .ev (.sched (.finish 0 1 .ok)), .ev .tick, .ev (.sched (.start 0 2)), .ev (.write 2 7), .ev (.sched (.finish 0 2 .ok))]

def dirS : St Nat := (runW dirProj parent dirB.need dirB.objs dirB.g (dirB.start 5) dirTr).getD (dirB.start 5)

def dirB2 : Invocation dirProj srcEnv.canon 2 dirS.fs [] := .of (lim := 10) (lim' := 10) (n := 1) _ dir_all rfl rfl rfl

/-- C131 is false of the code: the directory `/s` exists and `/s/x` depends on it, so licant takes it for a source file.
The first build succeeds, nobody else touches any file, and the next build runs both commands again, because the
directory is newer than `/s/x` since `/s/y` was created in it. -/
theorem C131_violated :
    dirB.RunW parent 5 dirTr dirS ∧ dirS.Succeeded ∧ (∀ p d, WEv.other p d ∉ dirTr) ∧ Productive dirB (evs dirTr) ∧
    (∀ p e, dirFs p = some e → e.mtime ≤ 5) ∧ (∀ o, dirProj.kind o = .source → o < 3 → (dirFs (dirProj.path o)).isSome) ∧
    ∃ s2, dirB2.RunW parent 9 dirTr s2 ∧ s2.Succeeded ∧ dirB2.commands (evs dirTr) = [1, 2] := by
  refine ⟨runW_iff.2 rfl, ⟨rfl, rfl⟩, by simp [dirTr], productive_of (by decide +kernel), ?_, ?_, _, runW_iff.2 rfl, ⟨rfl, rfl⟩,
    by decide +kernel⟩
  · intro p e he
    unfold dirFs at he
    split at he <;> cases he
    decide
  · intro o hk ho
    have : o = 0 ∨ o = 1 ∨ o = 2 := by omega
    rcases this with rfl | rfl | rfl
    · rfl
    · cases hk
    · cases hk

end Licant.Make
