/-
Builds: histories of edits, deletions and (possibly interrupted) builds.  C35, C37.
-/
import Verif.Make.Props

set_option autoImplicit false

namespace Licant.Make
open Licant.Py Licant.Core Relation

variable {α : Type} {P : Proj α} {canon : String → String}

/-- no file target has been built -/
def Pristine (P : Proj α) (fs : FS α) : Prop :=
  ∀ o, Registered P.reg o → P.kind o = .file → fs (P.path o) = none

/-- `p` is the path of a file target -/
def IsProduct (P : Proj α) (p : String) : Prop :=
  ∃ o, Registered P.reg o ∧ P.kind o = .file ∧ P.path o = p

/-- `History P canon fs t`: the file system `fs` at time `t` is the result of some history of
* a first checkout without built files,
* edits, which give new time stamps, of paths other than built files,
* deletions of anything,
* the passing of time,
* builds of any targets, with any caches, that may end (or be killed) at any point between two
  events; their commands write what they should. -/
inductive History (P : Proj α) (canon : String → String) : FS α → Nat → Prop
  | checkout {fs t} : (∀ p e, fs p = some e → e.mtime ≤ t) → Pristine P fs → History P canon fs t
  | edit {fs t} (p : String) (d : Option α) : History P canon fs t → ¬ IsProduct P p →
      History P canon (setFile fs p ⟨t + 1, d⟩) (t + 1)
  | delete {fs t} (p : String) : History P canon fs t →
      History P canon (fun q => if q = p then none else fs q) t
  | wait {fs t} : History P canon fs t → History P canon fs (t + 1)
  | build {fs t root cache tr s} (B : Invocation P canon root fs cache) : History P canon fs t →
      Registered P.reg root → B.Run (t + 1) tr s → Faithful B (t + 1) tr →
      History P canon s.fs s.clock

/-- every built file whose inputs all exist and are not newer has the contents its command makes of
the present files -/
def Consist (P : Proj α) (canon : String → String) (fs : FS α) : Prop :=
  ∀ o e, Registered P.reg o → P.kind o = .file → fs (P.path o) = some e →
    (∀ o', InputOf P canon o o' → ∃ e', fs (P.path o') = some e' ∧ e'.mtime ≤ e.mtime) →
    contents fs (P.path o) = some (P.cmd o (contents fs))

theorem History.old {fs : FS α} {t : Nat} (h : History P canon fs t) :
    ∀ p e, fs p = some e → e.mtime ≤ t := by
  induction h with
  | checkout h _ => exact h
  | edit p d _ _ ih =>
    intro q e he
    simp only [setFile] at he
    split at he
    · cases he; exact le_refl _
    · exact le_trans (ih q e he) (Nat.le_succ _)
  | delete p _ ih =>
    intro q e he
    simp only at he
    split at he
    · cases he
    · exact ih q e he
  | wait _ ih => exact fun p e he => le_trans (ih p e he) (Nat.le_succ _)
  | build B _ _ hx _ ih => exact mtimes_le hx (fun p e he => le_trans (ih p e he) (Nat.le_succ _))

/-- an edit of something that is not a product keeps a file system consistent -/
theorem Consist.edit (hF : Functional P canon) {fs : FS α} {t : Nat} (hc : Consist P canon fs)
    (hold : ∀ p e, fs p = some e → e.mtime ≤ t) {p : String} (d : Option α) (hp : ¬ IsProduct P p) :
    Consist P canon (setFile fs p ⟨t + 1, d⟩) := by
  intro o e ho hk he hin
  have hne : P.path o ≠ p := fun h => hp ⟨o, ho, hk, h⟩
  simp only [setFile, hne, if_false] at he
  have hold := hold _ _ he
  have hin' : ∀ o', InputOf P canon o o' → P.path o' ≠ p := by
    intro o' hio hpe
    obtain ⟨e', h1, h2⟩ := hin o' hio
    simp only [setFile, hpe, if_true] at h1
    cases h1
    simp only at h2
    omega
  have := hc o e ho hk he (by
    intro o' hio
    obtain ⟨e', h1, h2⟩ := hin o' hio
    simp only [setFile, hin' o' hio, if_false] at h1
    exact ⟨e', h1, h2⟩)
  rw [hF o (contents (setFile fs p ⟨t + 1, d⟩)) (contents fs) (by
    intro o' hio
    simp [contents, setFile, hin' o' hio])]
  rw [← this]
  simp [contents, setFile, hne]

/-- a deletion keeps a file system consistent -/
theorem Consist.delete (hF : Functional P canon) {fs : FS α} (hc : Consist P canon fs) (p : String) :
    Consist P canon (fun q => if q = p then none else fs q) := by
  intro o e ho hk he hin
  simp only at he
  split at he
  · cases he
  · rename_i hne
    have hin' : ∀ o', InputOf P canon o o' → P.path o' ≠ p := by
      intro o' hio hpe
      obtain ⟨e', h1, _⟩ := hin o' hio
      simp [hpe] at h1
    have := hc o e ho hk he (by
      intro o' hio
      obtain ⟨e', h1, h2⟩ := hin o' hio
      simp only [hin' o' hio, if_false] at h1
      exact ⟨e', h1, h2⟩)
    rw [hF o (contents (fun q => if q = p then none else fs q)) (contents fs) (by
      intro o' hio
      simp [contents, hin' o' hio])]
    rw [← this]
    simp [contents, hne]

/-- a build, complete or not, keeps a file system consistent -/
theorem Consist.build (hS : Sound P canon) (hF : Functional P canon) {fs : FS α} {t : Nat}
    (hc : Consist P canon fs) (hold : ∀ p e, fs p = some e → e.mtime ≤ t) {root : Nat}
    {cache : FileCache} {tr : List (Ev α)} {s : St α} {B : Invocation P canon root fs cache}
    (hroot : Registered P.reg root) (hx : B.Run (t + 1) tr s) (hfa : Faithful B (t + 1) tr) :
    Consist P canon s.fs := by
  intro o e ho hk he hin
  by_cases hw : Written B tr o
  · exact written_content hS hroot hF hx hfa o hw
  · have hsame := unwritten hS hroot hx ho (Or.inl hk) hw
    rw [hsame] at he
    have hold := hold _ _ he
    have hsame' : ∀ o', InputOf P canon o o' → s.fs (P.path o') = fs (P.path o') := by
      intro o' hio
      refine unwritten hS hroot hx hio.registered hio.kind ?_
      rintro ⟨j, v, hm, hj⟩
      obtain ⟨t', v', h1, h2⟩ := written_file hx j v o' hm hj
      obtain ⟨e', h3, h4⟩ := hin o' hio
      rw [h1] at h3; cases h3
      simp only at h4
      omega
    have := hc o e ho hk he (by
      intro o' hio
      obtain ⟨e', h1, h2⟩ := hin o' hio
      rw [hsame' o' hio] at h1
      exact ⟨e', h1, h2⟩)
    rw [hF o (contents s.fs) (contents fs) (by
      intro o' hio; unfold contents; rw [hsame' o' hio])]
    rw [← this]
    unfold contents
    rw [hsame]

theorem History.consist (hS : Sound P canon) (hF : Functional P canon) {fs : FS α} {t : Nat}
    (h : History P canon fs t) : Consist P canon fs := by
  induction h with
  | checkout _ h =>
    intro o e ho hk he
    rw [h o ho hk] at he; cases he
  | edit p d h hp ih => exact ih.edit hF h.old d hp
  | delete p _ ih => exact ih.delete hF p
  | wait _ ih => exact ih
  | build B h hroot hx hfa ih => exact ih.build hS hF h.old hroot hx hfa

/-- In a consistent file system, after a successful faithful build, every file target of the
closure has the contents its command makes of the present files. -/
theorem consist_built (hS : Sound P canon) (hF : Functional P canon) {fs : FS α} {t : Nat}
    (hH : Consist P canon fs) {root : Nat} {cache : FileCache} {B : Invocation P canon root fs cache}
    {tr : List (Ev α)} {s : St α} (hroot : Registered P.reg root) (hk : P.kind root ≠ .other)
    (hacc : Accurate P fs cache) (hx : B.Run t tr s) (hfa : Faithful B t tr)
    (hp : Productive B tr) (hs : s.Succeeded) {o : Nat} (ho : Closure canon P.reg root o)
    (hko : P.kind o = .file) : contents s.fs (P.path o) = some (P.cmd o (contents s.fs)) := by
  by_cases hnw : NeedsWork P canon (view fs cache) o
  · obtain ⟨i, w, w', hi, hst, hf⟩ := Succeeded.finished hS hroot hx hs ho
    have hw := (need_closure hS hroot hk B ho).1.2 hnw
    obtain ⟨v, hv⟩ := hp w i o (mem_sched.1 hf) hi (by
      unfold Invocation.commands Invocation.updates
      rw [List.mem_filter, mem_updateCalls]
      exact ⟨⟨hw, w', i, hst, hi⟩, by simp [hko]⟩)
    exact written_content hS hroot hF hx hfa o ⟨i, v, hv, hi⟩
  · have hreg := closure_registered hroot ho
    rw [needsWork_congr hreg hacc] at hnw
    have nowrite : ∀ x, Closure canon P.reg o x → ¬ Written B tr x := by
      rintro x hox ⟨j, v, hm, hj⟩
      obtain ⟨_, x', h1, _, h3⟩ := write_info hS hroot hx j v hm
      rw [hj] at h1; cases h1
      have hclx := ReflTransGen.trans ho hox
      exact hnw (((needsWork_congr (closure_registered hroot hclx) hacc).1
        ((need_closure hS hroot hk B hclx).1.1 h3)).mono hox)
    have hself := unwritten hS hroot hx hreg (Or.inl hko) (nowrite o .refl)
    have hood : ∀ x, Closure canon P.reg o x → P.kind x = .file ∨ P.kind x = .source →
        (fileinfo fs (P.path x)).exist = true ∧ ∀ o', InputOf P canon x o' →
          (fileinfo fs (P.path o')).mtime ≤ (fileinfo fs (P.path x)).mtime := by
      intro x hox hkx
      have h : ¬ OutOfDate P canon (fileinfo fs) x := fun h => hnw ⟨x, hox, h⟩
      unfold OutOfDate at h
      rcases hkx with hkx | hkx <;> rw [hkx] at h <;>
      · simp only [not_or, not_exists, not_and, Bool.not_eq_true, Bool.not_eq_false, gt_iff_lt, not_lt] at h
        exact h.2
    obtain ⟨hex, hin⟩ := hood o .refl (Or.inl hko)
    rw [fileinfo_exist] at hex
    obtain ⟨e, he⟩ := Option.isSome_iff_exists.1 hex
    have := hH o e hreg hko he (by
      intro o' hio
      have hex' := (hood o' hio.closure hio.kind).1
      rw [fileinfo_exist] at hex'
      obtain ⟨e', he'⟩ := Option.isSome_iff_exists.1 hex'
      have := hin o' hio
      simp only [fileinfo, he, he'] at this
      exact ⟨e', he', this⟩)
    rw [hF o (contents s.fs) (contents fs) (by
      intro o' hio
      unfold contents
      rw [unwritten hS hroot hx hio.registered hio.kind (nowrite o' hio.closure)])]
    rw [← this]
    unfold contents
    rw [hself]

theorem built_contents (hS : Sound P canon) (hF : Functional P canon) {fs : FS α} {t : Nat}
    (hH : History P canon fs t) {root : Nat} {cache : FileCache} {B : Invocation P canon root fs cache}
    {tr : List (Ev α)} {s : St α} (hroot : Registered P.reg root) (hk : P.kind root ≠ .other)
    (hacc : Accurate P fs cache) (hx : B.Run (t + 1) tr s) (hfa : Faithful B (t + 1) tr)
    (hp : Productive B tr) (hs : s.Succeeded) {o : Nat} (ho : Closure canon P.reg root o)
    (hko : P.kind o = .file) : contents s.fs (P.path o) = some (P.cmd o (contents s.fs)) :=
  consist_built hS hF (hH.consist hS hF) hroot hk hacc hx hfa hp hs ho hko

/-- The contents of the file targets of a closure are determined by those of the sources. -/
theorem contents_unique (hS : Sound P canon) (hF : Functional P canon) {root : Nat} {f f' : String → Option α}
    (hf : ∀ o, Closure canon P.reg root o → P.kind o = .file → f (P.path o) = some (P.cmd o f))
    (hf' : ∀ o, Closure canon P.reg root o → P.kind o = .file → f' (P.path o) = some (P.cmd o f'))
    (hsrc : ∀ o, Closure canon P.reg root o → P.kind o = .source → f (P.path o) = f' (P.path o))
    (hroot : Registered P.reg root) :
    ∀ o, Closure canon P.reg root o → P.kind o = .file → f (P.path o) = f' (P.path o) := by
  -- induction on the length of the longest chain of inputs
  have key : ∀ n, ∀ o, Closure canon P.reg root o → P.kind o = .file →
      (∀ l : List Nat, (∀ x ∈ o :: l, Registered P.reg x) →
        (o :: l).IsChain (TransGen (ObjDep canon P.reg)) → l.length < n) →
      f (P.path o) = f' (P.path o) := by
    intro n
    induction n with
    | zero =>
      intro o ho _ h
      exact absurd (h [] (by simpa using closure_registered hroot ho) (by simp)) (by simp)
    | succ n ih =>
      intro o ho hko h
      rw [hf o ho hko, hf' o ho hko]
      congr 1
      refine hF o f f' ?_
      intro o' hin
      rcases hin.kind with hk' | hk'
      · refine ih o' (ReflTransGen.trans ho hin.closure) hk' ?_
        intro l hl hch
        have := h (o' :: l) (by
          intro x hx
          rcases List.mem_cons.1 hx with rfl | hx
          · exact closure_registered hroot ho
          · exact hl x hx) (List.isChain_cons_cons.2 ⟨hin.trans, hch⟩)
        simpa using this
      · exact hsrc o' (ReflTransGen.trans ho hin.closure) hk'
  have hnd : ∀ l : List Nat, l.IsChain (TransGen (ObjDep canon P.reg)) → l.Nodup := by
    intro l hl
    have hp := List.isChain_iff_pairwise.1 hl
    exact hp.imp (fun {a b} h => by rintro rfl; exact hS.acyclic a h)
  intro o ho hko
  refine key (P.reg.targets.length + 1) o ho hko ?_
  intro l hl hch
  have h1 := hnd _ hch
  have hsub : (o :: l) ⊆ P.reg.targets.map (·.2) := by
    intro x hx
    obtain ⟨n, hn⟩ := hl x hx
    exact List.mem_map.2 ⟨_, Dict.mem_of_get hn, rfl⟩
  have := (List.subperm_of_subset h1 hsub).length_le
  simp only [List.length_cons, List.length_map] at this
  omega

/-- C35: after any history of edits, deletions and (possibly partial) builds, a successful build
leaves every file target of the closure with the contents that a successful build from scratch of
the same sources gives; and these contents are what its command makes of the files as they are
now. -/
theorem C35_incremental (hS : Sound P canon) (hF : Functional P canon) {root : Nat}
    (hroot : Registered P.reg root) (hk : P.kind root ≠ .other)
    {fs fs1 : FS α} {t t1 : Nat} (hH : History P canon fs t)
    (h1 : ∀ p e, fs1 p = some e → e.mtime ≤ t1) (h1' : Pristine P fs1)
    (hsrc : ∀ o, Closure canon P.reg root o → P.kind o = .source →
      contents fs1 (P.path o) = contents fs (P.path o))
    {cache cache1 : FileCache} (hacc : Accurate P fs cache) (hacc1 : Accurate P fs1 cache1)
    {B : Invocation P canon root fs cache} {B1 : Invocation P canon root fs1 cache1}
    {tr tr1 : List (Ev α)} {s s1 : St α}
    (hx : B.Run (t + 1) tr s) (hfa : Faithful B (t + 1) tr) (hp : Productive B tr) (hs : s.Succeeded)
    (hx1 : B1.Run (t1 + 1) tr1 s1) (hfa1 : Faithful B1 (t1 + 1) tr1) (hp1 : Productive B1 tr1)
    (hs1 : s1.Succeeded) {o : Nat} (ho : Closure canon P.reg root o) (hko : P.kind o = .file) :
    contents s.fs (P.path o) = contents s1.fs (P.path o) ∧
    contents s.fs (P.path o) = some (P.cmd o (contents s.fs)) := by
  have hc := fun o ho hko => built_contents hS hF hH hroot hk hacc hx hfa hp hs (o := o) ho hko
  have hc1 := fun o ho hko => built_contents hS hF (History.checkout (canon := canon) h1 h1') hroot hk hacc1 hx1
    hfa1 hp1 hs1 (o := o) ho hko
  refine ⟨contents_unique hS hF hc hc1 ?_ hroot o ho hko, hc o ho hko⟩
  intro o' ho' hk'
  have hr' := closure_registered hroot ho'
  have := hsrc o' ho' hk'
  unfold contents at this ⊢
  rw [source_unchanged hS hroot hx hr' hk', source_unchanged hS hroot hx1 hr' hk', this]

/-- Non-vacuity of C35: build, edit the source, build again; compared with a build from scratch of
the edited source. -/
example : ∃ t s s1, History demo id demoFs3 t ∧ Pristine demo demoFs ∧
    demoB3.Run (t + 1) demoTr3 s ∧ s.Succeeded ∧
    Faithful demoB3 (t + 1) demoTr3 ∧ Productive demoB3 demoTr3 ∧
    demoB.Run 7 demoTr s1 ∧ s1.Succeeded ∧
    contents s.fs "d/app" = some 116 ∧ contents s1.fs "d/app" = some 115 := by
  have hpr : Pristine demo demoFs := by
    intro o ho hk
    have := demo_reg_iff.1 ho
    have : o = 0 ∨ o = 1 ∨ o = 2 ∨ o = 3 ∨ o = 4 := by omega
    rcases this with rfl | rfl | rfl | rfl | rfl <;> first | rfl | cases hk
  have h0 : History demo id demoFs 6 := .checkout (fun p e h => Nat.le_of_lt_succ (demo_old p e h)) hpr
  have h1 : History demo id demoS.fs demoS.clock := .build demoB h0 demo_root demoS_run
    (faithful_of (by decide +kernel))
  have hclk : demoS.clock = 9 := by decide +kernel
  rw [hclk] at h1
  have hw : ∀ k, History demo id demoS.fs (9 + k) := by
    intro k
    induction k with
    | zero => exact h1
    | succ k ih => exact .wait ih
  have h2 : History demo id demoFs3 20 := .edit "a.c" (some 6) (hw 10) (by
    rintro ⟨o, ho, hk, hp⟩
    have := demo_reg_iff.1 ho
    have : o = 0 ∨ o = 1 ∨ o = 2 ∨ o = 3 ∨ o = 4 := by omega
    rcases this with rfl | rfl | rfl | rfl | rfl
    · cases hk
    · cases hk
    · revert hp; decide
    · revert hp; decide
    · cases hk)
  exact ⟨20, _, demoS, h2, hpr, run_iff.2 rfl, ⟨rfl, rfl⟩, faithful_of (by decide +kernel),
    productive_of (by decide +kernel), demoS_run, ⟨rfl, rfl⟩, by decide +kernel, by decide +kernel⟩

/-- C37: a build of anything (`root0`), begun in any state `fs` a history leads to, stops at any
point (state `s0`: a crash, a failure of some target, ...).  A later successful build in a new process
leaves the same contents as a successful build from scratch of the same sources. -/
theorem C37_resume (hS : Sound P canon) (hF : Functional P canon) {root root0 : Nat}
    (hroot0 : Registered P.reg root0) (hroot : Registered P.reg root) (hk : P.kind root ≠ .other)
    {fs fs1 : FS α} {t t1 : Nat} (hH : History P canon fs t)
    (h1 : ∀ p e, fs1 p = some e → e.mtime ≤ t1) (h1' : Pristine P fs1)
    (hsrc : ∀ o, Closure canon P.reg root o → P.kind o = .source →
      contents fs1 (P.path o) = contents fs (P.path o))
    {cache0 : FileCache} {B0 : Invocation P canon root0 fs cache0} {tr0 : List (Ev α)} {s0 : St α}
    (hx0 : B0.Run (t + 1) tr0 s0) (hfa0 : Faithful B0 (t + 1) tr0)
    {B : Invocation P canon root s0.fs []} {B1 : Invocation P canon root fs1 []}
    {tr tr1 : List (Ev α)} {s s1 : St α}
    (hx : B.Run (s0.clock + 1) tr s) (hfa : Faithful B (s0.clock + 1) tr) (hp : Productive B tr)
    (hs : s.Succeeded)
    (hx1 : B1.Run (t1 + 1) tr1 s1) (hfa1 : Faithful B1 (t1 + 1) tr1) (hp1 : Productive B1 tr1)
    (hs1 : s1.Succeeded) {o : Nat} (ho : Closure canon P.reg root o) (hko : P.kind o = .file) :
    contents s.fs (P.path o) = contents s1.fs (P.path o) := by
  refine (C35_incremental hS hF hroot hk (.build B0 hH hroot0 hx0 hfa0) h1 h1' ?_ (accurate_nil _ _)
    (accurate_nil _ _) hx hfa hp hs hx1 hfa1 hp1 hs1 ho hko).1
  intro o' ho' hk'
  rw [hsrc o' ho' hk']
  unfold contents
  rw [source_unchanged hS hroot0 hx0 (closure_registered hroot ho') hk']

/-- the first build is killed after `d/a.o` was written -/
def demoTrCrash : List (Ev Nat) :=
  [.sched (.start 0 0), .sched (.finish 0 0 .ok), .sched (.start 0 2), .sched (.finish 0 2 .ok),
   .sched (.start 0 3), .tick, .write 3 15]

def demoSC : St Nat :=
  (runEvs demo demoB.need demoB.objs demoB.g (demoB.start 7) demoTrCrash).getD (demoB.start 7)

def demoBC : Invocation demo id 4 demoSC.fs [] := .of (lim := 10) (lim' := 10) (n := 1) _ demo_all rfl rfl rfl

/-- Non-vacuity of C37: the resumed build only makes `d/app`. -/
example : ∃ s, demoB.Run 7 demoTrCrash demoSC ∧ Faithful demoB 7 demoTrCrash ∧
    demoBC.Run (demoSC.clock + 1) [.sched (.start 0 0), .sched (.finish 0 0 .ok), .sched (.start 0 2),
      .sched (.finish 0 2 .ok), .sched (.start 0 3), .sched (.finish 0 3 .ok), .sched (.start 0 4),
      .write 4 115, .sched (.finish 0 4 .ok), .sched (.start 0 1), .sched (.finish 0 1 .ok)] s ∧
    s.Succeeded ∧ contents s.fs "d/app" = some 115 :=
  ⟨_, run_iff.2 rfl, faithful_of (by decide +kernel), run_iff.2 rfl, ⟨rfl, rfl⟩, by decide +kernel⟩

end Licant.Make
