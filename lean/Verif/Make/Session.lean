/-
Several actions in one process (licant/core.py `do`, licant/make.py, licant/cache.py): C144.
-/
import Verif.Make.Clean

set_option autoImplicit false

namespace Licant.Make
open Licant.Py Licant.Core Relation

variable {α : Type} {P : Proj α} {canon : String → String} {root : Nat} {abs : String → String}

/-! ### model -/

/-- make.py:160-162 `FileTarget.clr`, for the action `clr` of a file target: `rm -f {tgt}` (46-58), then the status of the path is
read again (57-58). -/
def clr (P : Proj α) (words : String → List String) (o : Nat) (fs : FS α) (cache : FileCache) : FS α × FileCache :=
  let fs' := rmF fs (words (P.path o))
  (fs', updateInfo fs' cache (P.path o))

/-- `Session P canon abs fs cache t`: a process that has called `core.do` (core.py:271-291) any number of times, for any targets and
the actions `makefile`, `clean` and `clr`, is between two calls; `fs` are the files, `cache` is what the process has remembered
about them (cache.py), `t` is the time.
* The process begins at the end of any history (C35), without memories.
* Every `do` asks all update conditions first, which adds to the memories (`evaluate`).
* `makefile` ended with some result, `True` or `False` (`returned`).
* Nobody else changes files (otherwise: C74). -/
inductive Session (P : Proj α) (canon : String → String) (abs : String → String) : FS α → FileCache → Nat → Prop
  | start {fs t} : History P canon fs t → Session P canon abs fs [] t
  | evaluate {fs cache cache' t} (lim : Nat) (l : List Nat) : Session P canon abs fs cache t →
      evalCache P canon fs lim l cache = .ok cache' → Session P canon abs fs cache' t
  | makefile {fs cache t root tr s} (B : Invocation P canon root fs cache) : Session P canon abs fs cache t →
      Registered P.reg root → B.Run (t + 1) tr s → Faithful B (t + 1) tr → s.sol.returned →
      Session P canon abs s.fs s.cache s.clock
  | clean {fs cache fs' cache' t} (root lim : Nat) (lcache : Cache) : Session P canon abs fs cache t →
      Registered P.reg root → (∀ t b, lcache.get (.pair t b) = none) →
      clean P canon (shellWords abs) lim lcache root fs cache = .ok (fs', cache') → Session P canon abs fs' cache' t
  | clr {fs cache t} (o : Nat) : Session P canon abs fs cache t → Registered P.reg o → P.kind o = .file →
      Session P canon abs (clr P (shellWords abs) o fs cache).1 (clr P (shellWords abs) o fs cache).2 t
  | wait {fs cache t} : Session P canon abs fs cache t → Session P canon abs fs cache (t + 1)

/-! ### what a process remembers is true -/

/-- when `makefile` has ended, what the process remembers is true, whether or not it was successful -/
theorem accurate_returned (hS : Sound P canon) (hroot : Registered P.reg root) {fs0 : FS α} {cache0 : FileCache}
    (hacc : Accurate P fs0 cache0) {B : Invocation P canon root fs0 cache0} {clock : Nat} {tr : List (Ev α)} {s : St α}
    (h : B.Run clock tr s) (hret : s.sol.returned) : Accurate P s.fs s.cache := by
  intro o ho hp
  refine (beliefs hS hroot hacc h).1 o ho hp ?_
  intro i v hw hi
  obtain ⟨dep, I, _⟩ := B.inv hS hroot h
  have hu := I.unf
  rw [show s.sol.unfinished = 0 from hret] at hu
  have hb : s.sol.ws.countP Solver.WS.busy = 0 := by omega
  rw [List.countP_eq_zero] at hb
  obtain ⟨hst, _⟩ := write_info hS hroot h i v hw
  rcases I.startedWhere i hst with he | ⟨w, hw'⟩
  · obtain ⟨w, r, hr⟩ := Solver.mem_ends.1 he
    refine ⟨w, r, hr, ?_⟩
    rintro rfl
    obtain ⟨Pr, order, lim, hor, hg⟩ := B.prep hS hroot
    exact Solver.C08_violated hor hg h.exec w i hr hret
  · have := hb _ (List.mem_of_getElem? hw')
    simp [Solver.WS.busy] at this

theorem History.rm {fs : FS α} {t : Nat} (h : History P canon fs t) (p : String) : History P canon (rmF fs [p]) t := by
  by_cases hr : Regular fs p
  · have : rmF fs [p] = fun q => if q = p then none else fs q := by
      funext q
      by_cases hq : q = p
      · subst hq; rw [rmF_self hr]; simp
      · rw [rmF_ne hq]; simp [hq]
    rw [this]
    exact .delete p h
  · have : rmF fs [p] = fs := by
      funext q
      rcases rmF_single (fs := fs) (p := p) (q := q) with h1 | ⟨_, h1, _⟩
      · exact h1
      · exact absurd h1 hr
    rw [this]; exact h

theorem cleanOne_session {words : String → List String} {fs : FS α} {cache : FileCache} {o t : Nat}
    (hw : P.kind o = .file → words (P.path o) = [P.path o]) (hH : History P canon fs t) (hA : Accurate P fs cache) :
    History P canon (cleanOne P words (fs, cache) o).1 t ∧
      Accurate P (cleanOne P words (fs, cache) o).1 (cleanOne P words (fs, cache) o).2 := by
  rcases cleanOne_eq (P := P) (words := words) (fs := fs) (cache := cache) (o := o) hw with ⟨_, _, h1, h2⟩ | ⟨_, h1, h2⟩
  · refine ⟨by rw [h1]; exact hH.rm _, fun x hx hp => ?_⟩
    rw [h2]
    split
    · rfl
    · rename_i hne
      rw [hA x hx hp, h1]
      exact (fileinfo_congr (rmF_ne hne)).symm
  · refine ⟨by rw [h1]; exact hH, fun x hx hp => ?_⟩
    rw [h2, h1]; exact hA x hx hp

theorem cleanFold_session {words : String → List String} {t : Nat} : ∀ (l : List Nat) (fs : FS α) (cache : FileCache),
    (∀ o ∈ l, P.kind o = .file → words (P.path o) = [P.path o]) → History P canon fs t → Accurate P fs cache →
    History P canon (l.foldl (cleanOne P words) (fs, cache)).1 t ∧
      Accurate P (l.foldl (cleanOne P words) (fs, cache)).1 (l.foldl (cleanOne P words) (fs, cache)).2
  | [], _, _, _, hH, hA => ⟨hH, hA⟩
  | o :: l, fs, cache, hw, hH, hA => by
    obtain ⟨h1, h2⟩ := cleanOne_session (hw o (by simp)) hH hA
    exact cleanFold_session l _ _ (fun x hx => hw x (by simp [hx])) h1 h2

/-- the paths of the built files have no spaces (C75) -/
def PlainFiles (P : Proj α) (abs : String → String) : Prop :=
  ∀ o, Registered P.reg o → P.kind o = .file → Plain abs (P.path o)

theorem Session.true (hS : Sound P canon) (hpl : PlainFiles P abs) {fs : FS α} {cache : FileCache} {t : Nat}
    (h : Session P canon abs fs cache t) : History P canon fs t ∧ Accurate P fs cache := by
  induction h with
  | start h => exact ⟨h, accurate_nil _ _⟩
  | evaluate lim l _ he ih =>
    refine ⟨ih.1, fun o ho hp => ?_⟩
    rw [evalCache_ok l _ _ he]
    exact ih.2 o ho hp
  | makefile B _ hr hx hf hret ih => exact ⟨.build B ih.1 hr hx hf, accurate_returned hS hr ih.2 hx hret⟩
  | clean root lim lcache _ hr hl hc ih =>
    obtain ⟨l, hmem, hfold⟩ := clean_ok hS hr hl hc
    have := cleanFold_session (words := shellWords abs) l _ _
      (fun o ho hk => plain_words (hpl o (closure_registered hr ((hmem o).1 ho)) hk)) ih.1 ih.2
    rw [hfold] at this
    exact this
  | @clr fs cache t o _ hr hk ih =>
    unfold Licant.Make.clr
    rw [plain_words (hpl o hr hk)]
    refine ⟨ih.1.rm _, fun x hx hp => ?_⟩
    simp only [view_updateInfo]
    split
    · rename_i h; rw [h]
    · rename_i hne
      have hne' : P.path x ≠ P.path o := fun h => hne h.symm
      rw [view_congr (rmF_ne hne'), ih.2 x hx hp, fileinfo_congr (rmF_ne hne')]
  | wait _ ih => exact ⟨.wait ih.1, ih.2⟩

/-! ### C144 -/

/-- the commands that a build runs, if what the process remembers is true: those of the file targets that need work -/
theorem commands_iff (hS : Sound P canon) (hroot : Registered P.reg root) (hk : P.kind root ≠ .other) {fs : FS α}
    {cache : FileCache} (hacc : Accurate P fs cache) {B : Invocation P canon root fs cache} {clock : Nat} {tr : List (Ev α)}
    {s : St α} (hx : B.Run clock tr s) :
    (∀ o ∈ B.commands tr, Closure canon P.reg root o ∧ P.kind o = .file ∧ NeedsWork P canon (fileinfo fs) o) ∧
    (s.Succeeded → ∀ o, o ∈ B.commands tr ↔
      Closure canon P.reg root o ∧ P.kind o = .file ∧ NeedsWork P canon (fileinfo fs) o) := by
  have hview : ∀ o, Registered P.reg o → (NeedsWork P canon (view fs cache) o ↔
      NeedsWork P canon (fileinfo fs) o) := fun o ho => needsWork_congr ho hacc
  have fwd : ∀ o ∈ B.commands tr, Closure canon P.reg root o ∧ P.kind o = .file ∧ NeedsWork P canon (fileinfo fs) o := by
    intro o ho
    unfold Invocation.commands Invocation.updates at ho
    rw [List.mem_filter, mem_updateCalls] at ho
    obtain ⟨⟨hw, w, i, _, hi⟩, hko⟩ := ho
    have hcl := B.closure hS hroot hi
    exact ⟨hcl, by simpa using hko,
      (hview o (closure_registered hroot hcl)).1 ((need_closure hS hroot hk B hcl).1.1 hw)⟩
  refine ⟨fwd, fun hs o => ⟨fwd o, ?_⟩⟩
  rintro ⟨hcl, hko, hn⟩
  obtain ⟨i, w, w', hi, hst, _⟩ := Succeeded.finished hS hroot hx hs hcl
  unfold Invocation.commands Invocation.updates
  rw [List.mem_filter, mem_updateCalls]
  exact ⟨⟨(need_closure hS hroot hk B hcl).1.2 ((hview o (closure_registered hroot hcl)).2 hn), w', i, hst, hi⟩, by simp [hko]⟩

/-- **C144**: the actions of one process do not get in each other's way.  A process has performed any actions, successful or not, and
the next one is a `makefile` of `root`, performed by this process (`B`) or, with the same files, by a new one (`B1`).
* If both are successful, both run the same commands; these are those of the file targets that need work, as the files are; and
  nothing else is run in any case.
* If both are successful, they leave the same contents in all file targets, namely what the commands make of the present files. -/
theorem C144_makefile (hS : Sound P canon) (hF : Functional P canon) (hpl : PlainFiles P abs) {fs : FS α} {cache : FileCache}
    {t : Nat} (h : Session P canon abs fs cache t) (hroot : Registered P.reg root) (hk : P.kind root ≠ .other)
    {B : Invocation P canon root fs cache} {tr : List (Ev α)} {s : St α} (hx : B.Run (t + 1) tr s)
    {B1 : Invocation P canon root fs []} {tr1 : List (Ev α)} {s1 : St α} (hx1 : B1.Run (t + 1) tr1 s1) :
    (∀ o ∈ B.commands tr, Closure canon P.reg root o ∧ P.kind o = .file ∧ NeedsWork P canon (fileinfo fs) o) ∧
    (s.Succeeded → s1.Succeeded → ∀ o, o ∈ B.commands tr ↔ o ∈ B1.commands tr1) ∧
    (s.Succeeded → s1.Succeeded → Faithful B (t + 1) tr → Productive B tr → Faithful B1 (t + 1) tr1 → Productive B1 tr1 →
      ∀ o, Closure canon P.reg root o → P.kind o = .file → contents s.fs (P.path o) = contents s1.fs (P.path o) ∧
        contents s.fs (P.path o) = some (P.cmd o (contents s.fs))) := by
  obtain ⟨hH, hA⟩ := h.true hS hpl
  obtain ⟨c1, c2⟩ := commands_iff hS hroot hk hA hx
  obtain ⟨_, c4⟩ := commands_iff hS hroot hk (accurate_nil P fs) hx1
  refine ⟨c1, fun hs hs1 o => (c2 hs o).trans (c4 hs1 o).symm, ?_⟩
  intro hs hs1 hfa hp hfa1 hp1 o ho hko
  have hc := fun o ho hko => built_contents hS hF hH hroot hk hA hx hfa hp hs (o := o) ho hko
  have hc1 := fun o ho hko => built_contents hS hF hH hroot hk (accurate_nil P fs) hx1 hfa1 hp1 hs1 (o := o) ho hko
  refine ⟨contents_unique hS hF hc hc1 ?_ hroot o ho hko, hc o ho hko⟩
  intro o' ho' hk'
  have hr' := closure_registered hroot ho'
  unfold contents
  rw [source_unchanged hS hroot hx hr' hk', source_unchanged hS hroot hx1 hr' hk']

/-- **C144**, `clean`: in a process that has performed any actions, `clean` of `root` deletes every built file of the closure that is
there, and a successful `makefile` of `root` that follows in the same process runs the commands of all of them. -/
theorem C144_rebuild (hS : Sound P canon) (hpl : PlainFiles P abs) {fs fs' : FS α} {cache cache' : FileCache} {t : Nat}
    (h : Session P canon abs fs cache t) (hroot : Registered P.reg root) (hk : P.kind root ≠ .other) {lim : Nat} {lcache : Cache}
    (hl : ∀ t b, lcache.get (.pair t b) = none)
    (hc : clean P canon (shellWords abs) lim lcache root fs cache = .ok (fs', cache')) :
    (∀ o, Closure canon P.reg root o → P.kind o = .file → Regular fs (P.path o) → fs' (P.path o) = none) ∧
    (∀ {B : Invocation P canon root fs' cache'} {tr : List (Ev α)} {s : St α}, B.Run (t + 1) tr s → s.Succeeded →
      ∀ o, Closure canon P.reg root o → P.kind o = .file → (Regular fs (P.path o) ∨ fs (P.path o) = none) →
        o ∈ B.commands tr) := by
  obtain ⟨_, hA⟩ := h.true hS hpl
  obtain ⟨_, hA'⟩ := (Session.clean root lim lcache h hroot hl hc).true hS hpl
  obtain ⟨c1, c2, _⟩ := C39_clean hS hroot (fun o ho hk => hpl o (closure_registered hroot ho) hk) hl hc
  have hdel : ∀ o, Closure canon P.reg root o → P.kind o = .file → Regular fs (P.path o) → fs' (P.path o) = none := by
    intro o ho hko hr
    refine (c1 o ho hko ?_ hr).1
    rw [hA o (closure_registered hroot ho) (Or.inl hko), fileinfo_exist]
    obtain ⟨_, _, h⟩ := hr
    rw [h]; rfl
  refine ⟨hdel, ?_⟩
  intro B tr s hx hs o ho hko hr
  refine ((commands_iff hS hroot hk hA' hx).2 hs o).2 ⟨ho, hko, o, .refl, ?_⟩
  have hnone : fs' (P.path o) = none := by
    rcases hr with hr | hr
    · exact hdel o ho hko hr
    · by_contra hne
      have h2 := (c2 (P.path o) (by rw [hr]; exact hne)).1
      exact hne h2
  unfold OutOfDate
  rw [hko]
  refine Or.inr (Or.inl ?_)
  rw [fileinfo_exist, hnone]; rfl

/-! ### example -/

/-- the files and memories after `clean` of the built demo project in the process that has built it -/
def demoCleaned : FS Nat × FileCache := (Licant.Make.clean demo id (shellWords id) 10 [] 4 demoS.fs demoS.cache).toOption.getD (demoFs, [])

def demoBAgain : Invocation demo id 4 demoCleaned.1 demoCleaned.2 := .of (lim := 10) (lim' := 10) (n := 1) _ demo_all rfl rfl rfl

theorem demo_pristine : Pristine demo demoFs := by
  intro o ho hk
  have := demo_reg_iff.1 ho
  have : o = 0 ∨ o = 1 ∨ o = 2 ∨ o = 3 ∨ o = 4 := by omega
  rcases this with rfl | rfl | rfl | rfl | rfl <;> first | rfl | cases hk

theorem demo_plain : PlainFiles demo id := by
  intro o ho _
  have := demo_reg_iff.1 ho
  have ho : o = 0 ∨ o = 1 ∨ o = 2 ∨ o = 3 ∨ o = 4 := by omega
  rcases ho with rfl | rfl | rfl | rfl | rfl <;> exact ⟨by decide, by decide, rfl⟩

theorem demo_session : Session demo id id demoS.fs demoS.cache demoS.clock := by
  have h0 : Session demo id id demoFs [] 6 := .start (.checkout (fun p e h => Nat.le_of_lt_succ (demo_old p e h)) demo_pristine)
  exact .makefile demoB h0 demo_root demoS_run (faithful_of (by decide +kernel)) (by unfold Solver.St.returned; decide +kernel)

/-- a process builds the demo project, cleans it and builds it again: the second build runs the same commands as the first -/
example : Sound demo id ∧ Functional demo id ∧ PlainFiles demo id ∧ Session demo id id demoS.fs demoS.cache demoS.clock ∧
    Session demo id id demoCleaned.1 demoCleaned.2 demoS.clock ∧
    demoCleaned.1 "d/app" = none ∧ (demoCleaned.1 "d").isSome ∧
    ∃ s, demoBAgain.Run (demoS.clock + 1) demoTr s ∧ s.Succeeded ∧ demoBAgain.commands demoTr = [2, 3] ∧
      contents s.fs "d/app" = some 115 := by
  have hc : Licant.Make.clean demo id (shellWords id) 10 [] 4 demoS.fs demoS.cache = .ok demoCleaned := rfl
  exact ⟨demo_sound, demo_functional, demo_plain, demo_session,
    .clean 4 10 [] demo_session demo_root (by simp) hc, by decide +kernel, by decide +kernel,
    _, run_iff.2 rfl, ⟨rfl, rfl⟩, by decide +kernel, by decide +kernel⟩

end Licant.Make
