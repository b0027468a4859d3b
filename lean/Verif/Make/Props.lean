/-
Builds: properties C33, C34, C36, C38, C44.
-/
import Verif.Make.Demo

set_option autoImplicit false

namespace Licant.Make
open Licant.Py Licant.Core Relation

variable {α : Type} {P : Proj α} {canon : String → String} {root : Nat} {fs0 : FS α}
  {cache0 : FileCache} {B : Invocation P canon root fs0 cache0} {clock0 : Nat} {s : St α}
  {tr : List (Ev α)}

/-! ### auxiliary facts -/

theorem dir_trans (hS : Sound P canon) {y z : Nat} (hy : P.kind y = .source ∨ P.kind y = .dir)
    (h : TransGen (ObjDep canon P.reg) y z) : P.kind z = .dir := by
  induction h with
  | single h => exact hS.srcDeps y _ hy h
  | tail _ h ih => exact hS.srcDeps _ _ (Or.inr ih) h

theorem source_no_input (hS : Sound P canon) {o o' : Nat} (hk : P.kind o = .source ∨ P.kind o = .dir) :
    ¬ InputOf P canon o o' := by
  intro h
  have := dir_trans hS hk h.trans
  rcases h.kind with h | h <;> rw [h] at this <;> cases this

/-- the first file or source on a way down -/
theorem first_file (hS : Sound P canon) {o x : Nat} (hk : P.kind o = .file ∨ P.kind o = .fileset)
    (hx : P.kind x = .file ∨ P.kind x = .source) (h : TransGen (ObjDep canon P.reg) o x) :
    ∃ z, InputOf P canon o z ∧ Closure canon P.reg z x := by
  revert hk
  induction h using TransGen.head_induction_on with
  | single h => exact fun _ => ⟨x, .direct h hx, .refl⟩
  | @head a c h htr ih =>
    intro hk
    cases hc : P.kind c with
    | file => exact ⟨c, .direct h (Or.inl hc), htr.to_reflTransGen⟩
    | fileset =>
      obtain ⟨z, h1, h2⟩ := ih (Or.inr hc)
      exact ⟨z, .through h hc h1, h2⟩
    | source =>
      have := dir_trans hS (Or.inl hc) htr
      rcases hx with hx | hx <;> rw [hx] at this <;> cases this
    | dir =>
      have := dir_trans hS (Or.inr hc) htr
      rcases hx with hx | hx <;> rw [hx] at this <;> cases this
    | other => exact absurd hc (hS.fileDeps a c hk h)

/-- the last file on a way down to a source -/
theorem last_file (hS : Sound P canon) {o x : Nat} (hk : P.kind o = .file ∨ P.kind o = .fileset)
    (hx : P.kind x = .source) (h : TransGen (ObjDep canon P.reg) o x) :
    InputOf P canon o x ∨
    ∃ f, Closure canon P.reg o f ∧ P.kind f = .file ∧ InputOf P canon f x := by
  revert hk
  induction h using TransGen.head_induction_on with
  | single h => exact fun _ => Or.inl (.direct h (Or.inr hx))
  | @head a c h htr ih =>
    intro hk
    cases hc : P.kind c with
    | file =>
      rcases ih (Or.inl hc) with h1 | ⟨f, h1, h2⟩
      · exact Or.inr ⟨c, .single h, hc, h1⟩
      · exact Or.inr ⟨f, .head h h1, h2⟩
    | fileset =>
      rcases ih (Or.inr hc) with h1 | ⟨f, h1, h2⟩
      · exact Or.inl (.through h hc h1)
      · exact Or.inr ⟨f, .head h h1, h2⟩
    | source =>
      have := dir_trans hS (Or.inl hc) htr
      rw [hx] at this; cases this
    | dir =>
      have := dir_trans hS (Or.inr hc) htr
      rw [hx] at this; cases this
    | other => exact absurd hc (hS.fileDeps a c hk h)

/-- the objects of the closure have a number -/
theorem Invocation.index (hS : Sound P canon) (hroot : Registered P.reg root)
    (B : Invocation P canon root fs0 cache0) {o : Nat} (ho : Closure canon P.reg root o) :
    ∃ i : Nat, B.objs[i]? = some o :=
  List.getElem?_of_mem (((B.prep hS hroot).1.mem o).2 ho)

theorem Invocation.closure (hS : Sound P canon) (hroot : Registered P.reg root)
    (B : Invocation P canon root fs0 cache0) {i o : Nat} (hi : B.objs[i]? = some o) :
    Closure canon P.reg root o :=
  ((B.prep hS hroot).1.mem o).1 (List.mem_of_getElem? hi)

/-- in a successful build everything is finished successfully -/
theorem Succeeded.finished (hS : Sound P canon) (hroot : Registered P.reg root)
    (h : B.Run clock0 tr s) (hs : s.Succeeded) {o : Nat} (ho : Closure canon P.reg root o) :
    ∃ i w w' : Nat, B.objs[i]? = some o ∧ Solver.Ev.start w' i ∈ sched tr ∧
      Solver.Ev.finish w i .ok ∈ sched tr := by
  obtain ⟨i, hi⟩ := B.index hS hroot ho
  obtain ⟨Pr, order, lim, hor, hg⟩ := B.prep hS hroot
  obtain ⟨hall, _⟩ := Solver.C03_true_means_all_done hor hg h.exec hs.1 hs.2
  obtain ⟨⟨w', h1⟩, w, h2⟩ := hall i (by rw [Pr.len]; exact (List.getElem?_eq_some_iff.1 hi).1)
  exact ⟨i, w, w', hi, h1, h2⟩

theorem need_closure (hS : Sound P canon) (hroot : Registered P.reg root) (hk : P.kind root ≠ .other)
    (B : Invocation P canon root fs0 cache0) {o : Nat} (ho : Closure canon P.reg root o) :
    (work P.reg B.need o = .calls ↔ NeedsWork P canon (view fs0 cache0) o) ∧
    (work P.reg B.need o = .skips ↔ ¬ NeedsWork P canon (view fs0 cache0) o) :=
  B.need_iff hS (closure_registered hroot ho) (closure_upd hS hroot hk ho)
    (fun _ h => closure_upd hS hroot hk (ReflTransGen.trans ho h))

theorem NeedsWork.mono {V : String → Info} {o o' : Nat} (h : Closure canon P.reg o o')
    (hn : NeedsWork P canon V o') : NeedsWork P canon V o := by
  obtain ⟨x, h1, h2⟩ := hn
  exact ⟨x, h.trans h1, h2⟩

/-- the program's beliefs only matter at paths of targets -/
theorem outOfDate_congr {V V' : String → Info} {o : Nat} (ho : Registered P.reg o)
    (h : ∀ o, Registered P.reg o → IsPath P o → V (P.path o) = V' (P.path o)) :
    OutOfDate P canon V o ↔ OutOfDate P canon V' o := by
  unfold OutOfDate
  have hin : ∀ o', InputOf P canon o o' → V (P.path o') = V' (P.path o') := by
    intro o' hi
    refine h o' hi.registered ?_
    rcases hi.kind with hk | hk
    · exact Or.inl hk
    · exact Or.inr (Or.inl hk)
  have key : IsPath P o → ((P.force o = true ∨ (V (P.path o)).exist = false ∨
      ∃ o', InputOf P canon o o' ∧ (V (P.path o')).mtime > (V (P.path o)).mtime) ↔
      (P.force o = true ∨ (V' (P.path o)).exist = false ∨
      ∃ o', InputOf P canon o o' ∧ (V' (P.path o')).mtime > (V' (P.path o)).mtime)) := by
    intro hp
    rw [h o ho hp]
    refine or_congr Iff.rfl (or_congr Iff.rfl ?_)
    constructor
    · rintro ⟨o', h1, h2⟩; exact ⟨o', h1, by rw [← hin o' h1]; exact h2⟩
    · rintro ⟨o', h1, h2⟩; exact ⟨o', h1, by rw [hin o' h1]; exact h2⟩
  cases hk : P.kind o with
  | file => exact key (Or.inl hk)
  | source => exact key (Or.inr (Or.inl hk))
  | dir => simp only; rw [h o ho (Or.inr (Or.inr hk))]
  | fileset => exact Iff.rfl
  | other => exact Iff.rfl

theorem needsWork_congr {V V' : String → Info} {o : Nat} (ho : Registered P.reg o)
    (h : ∀ o, Registered P.reg o → IsPath P o → V (P.path o) = V' (P.path o)) :
    NeedsWork P canon V o ↔ NeedsWork P canon V' o := by
  constructor
  · rintro ⟨x, h1, h2⟩
    exact ⟨x, h1, (outOfDate_congr (closure_registered ho h1) h).1 h2⟩
  · rintro ⟨x, h1, h2⟩
    exact ⟨x, h1, (outOfDate_congr (closure_registered ho h1) h).2 h2⟩

theorem accurate_nil (P : Proj α) (fs : FS α) : Accurate P fs [] := fun _ _ _ => rfl

/-- After a successful build the program's beliefs are true. -/
theorem accurate_after (hS : Sound P canon) (hroot : Registered P.reg root)
    (hacc : Accurate P fs0 cache0) (h : B.Run clock0 tr s) (hs : s.Succeeded) :
    Accurate P s.fs s.cache := by
  intro o ho hp
  refine (beliefs hS hroot hacc h).1 o ho hp ?_
  intro i v _ hi
  obtain ⟨j, w, _, hj, _, hf⟩ := Succeeded.finished hS hroot h hs (B.closure hS hroot hi)
  have := B.idx hS hroot hi hj
  subst this
  exact ⟨w, _, hf, by simp⟩

/-! ### C33 -/

/-- C33, first part: after a successful `makefile` of `root` every file target of the closure exists and is at least as new
as every file and source it depends on, whether or not targets are forced. -/
theorem C33_fresh (hS : Sound P canon) (hroot : Registered P.reg root) (hk : P.kind root ≠ .other) (hacc : Accurate P fs0 cache0)
    (ht : ∀ p e, fs0 p = some e → e.mtime ≤ clock0) (hx : B.Run clock0 tr s) (hp : Productive B tr) (hs : s.Succeeded) :
    ∀ o, Closure canon P.reg root o → P.kind o = .file → Fresh P canon s.fs o := by
  intro o ho hko
  obtain ⟨i, w, w', hi, hst, hf⟩ := Succeeded.finished hS hroot hx hs ho
  have hn := need_closure hS hroot hk B ho
  by_cases hnw : NeedsWork P canon (view fs0 cache0) o
  · have hw := hn.1.2 hnw
    obtain ⟨v, hv⟩ := hp w i o (mem_sched.1 hf) hi (by
      unfold Invocation.commands Invocation.updates
      rw [List.mem_filter, mem_updateCalls]
      exact ⟨⟨hw, w', i, hst, hi⟩, by simp [hko]⟩)
    obtain ⟨t, v', h1, h2⟩ := written_file hx i v o hv hi
    refine ⟨_, h1, ?_⟩
    intro o' e' hin he'
    exact written_newer hS hroot hx ht o o' _ e' ⟨i, v, hv, hi⟩ hin h1 he'
  · have nowrite : ∀ x, Closure canon P.reg o x → ¬ Written B tr x := by
      rintro x hox ⟨j, v, hm, hj⟩
      obtain ⟨_, x', h1, _, h3⟩ := write_info hS hroot hx j v hm
      rw [hj] at h1; cases h1
      exact hnw (((need_closure hS hroot hk B (ReflTransGen.trans ho hox)).1.1 h3).mono hox)
    have hself := unwritten hS hroot hx (closure_registered hroot ho) (Or.inl hko) (nowrite o .refl)
    have hood : ¬ OutOfDate P canon (view fs0 cache0) o := fun h => hnw ⟨o, .refl, h⟩
    unfold OutOfDate at hood
    rw [hko] at hood
    simp only [not_or, not_exists, not_and, Bool.not_eq_true, Bool.not_eq_false] at hood
    obtain ⟨_, hex, hin⟩ := hood
    rw [hacc o (closure_registered hroot ho) (Or.inl hko)] at hex hin
    rw [fileinfo_exist] at hex
    obtain ⟨e, he⟩ := Option.isSome_iff_exists.1 hex
    refine ⟨e, by rw [hself, he], ?_⟩
    intro o' e' hi' he'
    have hip : IsPath P o' := by
      rcases hi'.kind with h | h
      · exact Or.inl h
      · exact Or.inr (Or.inl h)
    rw [unwritten hS hroot hx hi'.registered hi'.kind (nowrite o' hi'.closure)] at he'
    have := hin o' hi'
    rw [hacc o' hi'.registered hip] at this
    simp only [fileinfo, he, he', gt_iff_lt, not_lt] at this
    exact this

/-- existing, fresh and not forced: nothing to do -/
theorem not_needsWork (hS : Sound P canon) (hk : P.kind root ≠ .other) {fs : FS α}
    (hnf : ∀ o, Closure canon P.reg root o → P.force o = false)
    (hexist : ∀ o, Closure canon P.reg root o → IsPath P o → (fs (P.path o)).isSome)
    (hfresh : ∀ o, Closure canon P.reg root o → P.kind o = .file → Fresh P canon fs o) :
    ¬ NeedsWork P canon (fileinfo fs) root := by
  rintro ⟨o, ho, hood⟩
  unfold OutOfDate at hood
  have key : P.kind o = .file ∨ P.kind o = .source → ¬ (P.force o = true ∨
      (fileinfo fs (P.path o)).exist = false ∨
      ∃ o', InputOf P canon o o' ∧ (fileinfo fs (P.path o')).mtime >
        (fileinfo fs (P.path o)).mtime) := by
    intro hko
    rintro (h | h | ⟨o', h1, h2⟩)
    · rw [hnf o ho] at h; cases h
    · rw [fileinfo_exist] at h
      have := hexist o ho (hko.elim Or.inl (fun h => Or.inr (Or.inl h)))
      rw [h] at this; cases this
    · rcases hko with hko | hko
      · obtain ⟨e, he, hle⟩ := hfresh o ho hko
        have hex := hexist o' (ReflTransGen.trans ho h1.closure)
          (h1.kind.elim Or.inl (fun h => Or.inr (Or.inl h)))
        obtain ⟨e', he'⟩ := Option.isSome_iff_exists.1 hex
        have := hle o' e' h1 he'
        simp only [fileinfo, he, he'] at h2
        exact absurd h2 (not_lt.2 this)
      · exact source_no_input hS (Or.inl hko) h1
  cases hko : P.kind o with
  | file => rw [hko] at hood; exact key (Or.inl hko) hood
  | source => rw [hko] at hood; exact key (Or.inr hko) hood
  | dir =>
    rw [hko] at hood
    simp only [fileinfo_exist] at hood
    have := hexist o ho (Or.inr (Or.inr hko))
    rw [hood] at this; cases this
  | fileset => rw [hko] at hood; exact hood
  | other => exact closure_kind hS hk ho hko

/-- C33: after a successful `makefile` of `root` every path of the closure exists, every file target
is at least as new as every file and source it depends on, and neither a new process nor the same
process finds anything out of date. -/
theorem C33_up_to_date (hS : Sound P canon) (hroot : Registered P.reg root)
    (hk : P.kind root ≠ .other) (hacc : Accurate P fs0 cache0)
    (hnf : ∀ o, Closure canon P.reg root o → P.force o = false)
    (hsrc : ∀ o, Closure canon P.reg root o → P.kind o = .source → (fs0 (P.path o)).isSome)
    (ht : ∀ p e, fs0 p = some e → e.mtime ≤ clock0)
    (hx : B.Run clock0 tr s) (hp : Productive B tr) (hs : s.Succeeded) :
    (∀ o, Closure canon P.reg root o → IsPath P o → (s.fs (P.path o)).isSome) ∧
    (∀ o, Closure canon P.reg root o → P.kind o = .file → Fresh P canon s.fs o) ∧
    ∀ cache', cache' = [] ∨ cache' = s.cache →
      ¬ NeedsWork P canon (view s.fs cache') root ∧
      ∀ B' : Invocation P canon root s.fs cache', ∀ o, Closure canon P.reg root o →
        B'.need o = some false := by
  have hfresh := C33_fresh hS hroot hk hacc ht hx hp hs
  have hexist : ∀ o, Closure canon P.reg root o → IsPath P o → (s.fs (P.path o)).isSome := by
    rintro o ho (h | h | h)
    · obtain ⟨e, he, _⟩ := hfresh o ho h
      rw [he]; rfl
    · exact fs_keep hx (hsrc o ho h)
    · obtain ⟨i, w, _, hi, _, hf⟩ := Succeeded.finished hS hroot hx hs ho
      exact (beliefs hS hroot hacc hx).2 w i o hf hi h
  have hclean : ¬ NeedsWork P canon (fileinfo s.fs) root := not_needsWork hS hk hnf hexist hfresh
  have hany : ∀ cache', cache' = [] ∨ cache' = s.cache → ¬ NeedsWork P canon (view s.fs cache') root := by
    rintro cache' (rfl | rfl)
    · exact hclean
    · exact fun h => hclean ((needsWork_congr hroot (accurate_after hS hroot hacc hx hs)).1 h)
  refine ⟨hexist, hfresh, fun cache' hc => ⟨hany cache' hc, ?_⟩⟩
  intro B' o ho
  have h1 := (need_closure hS hroot hk B' ho).2.2 (fun h => hany cache' hc (h.mono ho))
  have hu := closure_upd hS hroot hk ho
  unfold work at h1
  rw [hu] at h1
  simp only [Bool.true_eq_false, if_false] at h1
  split at h1
  · cases h1
  · cases h1
  · assumption

theorem demo_root : Registered demo.reg 4 := demo_reg_iff.2 (by decide)

/-- Non-vacuity of C33: the first build of the demo project. -/
theorem demo_up_to_date : ¬ NeedsWork demo id (fileinfo demoS.fs) 4 :=
  ((C33_up_to_date demo_sound demo_root (by decide) (accurate_nil _ _) (fun _ _ => rfl) demo_sources
    (fun p e h => le_of_lt (demo_old p e h)) demoS_run (productive_of (by decide +kernel)) ⟨rfl, rfl⟩).2.2
    [] (Or.inl rfl)).1

/-! ### C34 -/

/-- If nothing is to be done and all paths exist then an invocation does nothing. -/
theorem idle (hS : Sound P canon) (hroot : Registered P.reg root) (hk : P.kind root ≠ .other)
    (hex : ∀ o, Closure canon P.reg root o → IsPath P o → (fs0 (P.path o)).isSome)
    (hnw : ¬ NeedsWork P canon (view fs0 cache0) root) (hx : B.Run clock0 tr s) :
    B.updates tr = [] ∧ B.commands tr = [] ∧ s.fs = fs0 := by
  have hno : ∀ o, Closure canon P.reg root o → work P.reg B.need o ≠ .calls := by
    intro o ho h
    exact hnw (((need_closure hS hroot hk B ho).1.1 h).mono ho)
  have hu : B.updates tr = [] := by
    rw [List.eq_nil_iff_forall_not_mem]
    intro o hm
    unfold Invocation.updates at hm
    obtain ⟨h1, w, i, _, hi⟩ := mem_updateCalls.1 hm
    exact hno o (B.closure hS hroot hi) h1
  refine ⟨hu, by simp [Invocation.commands, hu], ?_⟩
  clear hu
  induction hx with
  | nil => rfl
  | @snoc tr s1 e s2 hy hst ih =>
    cases fsStep hst with
    | same hfs _ => rw [hfs, ih]
    | write ho _ _ hw _ => exact absurd hw (hno _ (B.closure hS hroot ho))
    | mkdir ho hkd hno' _ _ =>
      have := hex _ (B.closure hS hroot ho) (Or.inr (Or.inr hkd))
      rw [ih] at hno'
      rw [hno'] at this; cases this

/-- C34: building again after a successful build, in a new process or in the same one, calls no
update function and changes no file, in every execution. -/
theorem C34_second_build (hS : Sound P canon) (hroot : Registered P.reg root)
    (hk : P.kind root ≠ .other) (hacc : Accurate P fs0 cache0)
    (hnf : ∀ o, Closure canon P.reg root o → P.force o = false)
    (hsrc : ∀ o, Closure canon P.reg root o → P.kind o = .source → (fs0 (P.path o)).isSome)
    (ht : ∀ p e, fs0 p = some e → e.mtime ≤ clock0)
    (hx : B.Run clock0 tr s) (hp : Productive B tr) (hs : s.Succeeded)
    {cache' : FileCache} (hc : cache' = [] ∨ cache' = s.cache) (B' : Invocation P canon root s.fs cache')
    {clock' : Nat} {tr' : List (Ev α)} {s' : St α} (hx' : B'.Run clock' tr' s') :
    B'.updates tr' = [] ∧ B'.commands tr' = [] ∧ s'.fs = s.fs := by
  obtain ⟨hex, _, hnw⟩ := C33_up_to_date hS hroot hk hacc hnf hsrc ht hx hp hs
  exact idle hS hroot hk hex (hnw cache' hc).1 hx'

/-- Non-vacuity of C34. -/
example : ∃ s', demoB2.Run 9 demoTr2 s' ∧ s'.Succeeded ∧ demoB2.updates demoTr2 = [] ∧
    s'.fs = demoS.fs :=
  have hx : demoB2.Run 9 demoTr2 _ := run_iff.2 rfl
  have h := C34_second_build demo_sound demo_root (by decide) (accurate_nil _ _) (fun _ _ => rfl)
    demo_sources (fun p e h => le_of_lt (demo_old p e h)) demoS_run (productive_of (by decide +kernel))
    ⟨rfl, rfl⟩ (Or.inl rfl) demoB2 hx
  ⟨_, hx, ⟨rfl, rfl⟩, h.1, h.2.2⟩

/-! ### C36 -/

/-- C36: a project is up to date (nothing in the closure of `root` is out of date in file system
`fs1`), then the source `x` gets new contents and a newer time stamp.  A successful build runs the
command of exactly those file targets of the closure that depend on `x`, directly or through other
targets; and no execution whatsoever runs any other. -/
theorem C36_rebuild_exactly_dependents (hS : Sound P canon) (hroot : Registered P.reg root)
    (hk : P.kind root ≠ .other) {fs1 : FS α} (hup : ¬ NeedsWork P canon (fileinfo fs1) root)
    {x t : Nat} {d : α} (hxr : Registered P.reg x) (hxk : P.kind x = .source)
    (ht : ∀ p e, fs1 p = some e → e.mtime < t)
    (hfs0 : fs0 = setFile fs1 (P.path x) ⟨t, some d⟩) (hacc : Accurate P fs0 cache0)
    (hx : B.Run clock0 tr s) :
    (∀ o ∈ B.commands tr, Closure canon P.reg root o ∧ P.kind o = .file ∧
      TransGen (ObjDep canon P.reg) o x) ∧
    (s.Succeeded → ∀ o, o ∈ B.commands tr ↔
      Closure canon P.reg root o ∧ P.kind o = .file ∧ TransGen (ObjDep canon P.reg) o x) := by
  have hother : ∀ o, Registered P.reg o → o ≠ x → fs0 (P.path o) = fs1 (P.path o) := by
    intro o ho hne
    have : P.path o ≠ P.path x := fun h => hne (path_inj hS ho hxr h)
    simp [hfs0, setFile, this]
  have hxfs : fs0 (P.path x) = some ⟨t, some d⟩ := by simp [hfs0, setFile]
  have hview : ∀ o, Registered P.reg o → (NeedsWork P canon (view fs0 cache0) o ↔
      NeedsWork P canon (fileinfo fs0) o) := fun o ho => needsWork_congr ho hacc
  have fwd : ∀ o ∈ B.commands tr, Closure canon P.reg root o ∧ P.kind o = .file ∧
      TransGen (ObjDep canon P.reg) o x := by
    intro o ho
    unfold Invocation.commands Invocation.updates at ho
    rw [List.mem_filter, mem_updateCalls] at ho
    obtain ⟨⟨hw, w, i, _, hi⟩, hko⟩ := ho
    have hko : P.kind o = .file := by simpa using hko
    have hcl := B.closure hS hroot hi
    refine ⟨hcl, hko, ?_⟩
    obtain ⟨o', hoo', hood⟩ := (hview o (closure_registered hroot hcl)).1
      ((need_closure hS hroot hk B hcl).1.1 hw)
    have hro' := closure_registered hroot (ReflTransGen.trans hcl hoo')
    have hold : ¬ OutOfDate P canon (fileinfo fs1) o' := fun h => hup ⟨o', ReflTransGen.trans hcl hoo', h⟩
    by_cases hox : o' = x
    · subst hox
      rcases reflTransGen_iff_eq_or_transGen.1 hoo' with h | h
      · subst h; rw [hxk] at hko; cases hko
      · exact h
    · have hsame := hother o' hro' hox
      unfold OutOfDate at hood hold
      rw [fileinfo_congr hsame] at hood
      have key : (P.kind o' = .file ∨ P.kind o' = .source) → InputOf P canon o' x := by
        intro hko'
        have h1 : (P.force o' = true ∨ (fileinfo fs1 (P.path o')).exist = false ∨
          ∃ o'', InputOf P canon o' o'' ∧ (fileinfo fs0 (P.path o'')).mtime >
            (fileinfo fs1 (P.path o')).mtime) := by
          rcases hko' with h | h <;> rw [h] at hood <;> exact hood
        have h2 : ¬ (P.force o' = true ∨ (fileinfo fs1 (P.path o')).exist = false ∨
          ∃ o'', InputOf P canon o' o'' ∧ (fileinfo fs1 (P.path o'')).mtime >
            (fileinfo fs1 (P.path o')).mtime) := by
          rcases hko' with h | h <;> rw [h] at hold <;> exact hold
        rcases h1 with h1 | h1 | ⟨o'', h3, h4⟩
        · exact absurd (Or.inl h1) h2
        · exact absurd (Or.inr (Or.inl h1)) h2
        · by_cases hox'' : o'' = x
          · subst hox''; exact h3
          · rw [fileinfo_congr (hother o'' h3.registered hox'')] at h4
            exact absurd (Or.inr (Or.inr ⟨o'', h3, h4⟩)) h2
      cases hko' : P.kind o' with
      | file => exact TransGen.trans_right hoo' (key (Or.inl hko')).trans
      | source => exact TransGen.trans_right hoo' (key (Or.inr hko')).trans
      | dir => rw [hko'] at hood hold; exact absurd hood hold
      | fileset => rw [hko'] at hood; exact hood.elim
      | other => exact absurd hko' (closure_kind hS hk (ReflTransGen.trans hcl hoo'))
  refine ⟨fwd, fun hs o => ⟨fwd o, ?_⟩⟩
  rintro ⟨hcl, hko, hox⟩
  obtain ⟨i, w, w', hi, hst, _⟩ := Succeeded.finished hS hroot hx hs hcl
  unfold Invocation.commands Invocation.updates
  rw [List.mem_filter, mem_updateCalls]
  refine ⟨⟨?_, w', i, hst, hi⟩, by simp [hko]⟩
  refine (need_closure hS hroot hk B hcl).1.2 ((hview o (closure_registered hroot hcl)).2 ?_)
  have hf : ∃ f, Closure canon P.reg o f ∧ P.kind f = .file ∧ InputOf P canon f x := by
    rcases last_file hS (Or.inl hko) hxk hox with h | h
    · exact ⟨o, .refl, hko, h⟩
    · exact h
  obtain ⟨f, h1, h2, h3⟩ := hf
  refine ⟨f, h1, ?_⟩
  unfold OutOfDate
  rw [h2]
  refine Or.inr (Or.inr ⟨x, h3, ?_⟩)
  have hfx : f ≠ x := by rintro rfl; rw [h2] at hxk; cases hxk
  have hrf := closure_registered hroot (ReflTransGen.trans hcl h1)
  rw [fileinfo_congr (hother f hrf hfx)]
  have hxt : (fileinfo fs0 (P.path x)).mtime = t := by simp only [fileinfo, hxfs]
  rw [hxt]
  have hex : (fileinfo fs1 (P.path f)).exist = true := by
    cases he : (fileinfo fs1 (P.path f)).exist with
    | true => rfl
    | false =>
      exfalso
      refine hup ⟨f, ReflTransGen.trans hcl h1, ?_⟩
      unfold OutOfDate; rw [h2]; exact Or.inr (Or.inl he)
  rw [fileinfo_exist] at hex
  obtain ⟨e, he⟩ := Option.isSome_iff_exists.1 hex
  simp only [fileinfo, he]
  exact ht _ e he

/-- Non-vacuity of C36: after an edit of `a.c` both files are built, from the up-to-date state of
the demo project. -/
example : ¬ NeedsWork demo id (fileinfo demoS.fs) 4 ∧
    (∀ p e, demoS.fs p = some e → e.mtime < 20) ∧
    ∃ s, demoB3.Run 21 demoTr3 s ∧ s.Succeeded ∧ demoB3.commands demoTr3 = [2, 3] ∧
      TransGen (ObjDep id demo.reg) 3 0 := by
  refine ⟨demo_up_to_date, ?_, _, run_iff.2 rfl, ⟨rfl, rfl⟩, by decide +kernel, ?_⟩
  · intro p e h
    have h1 := mtimes_le demoS_run (fun p e h => le_of_lt (demo_old p e h)) p e h
    have h2 : demoS.clock = 9 := by decide +kernel
    omega
  · exact .tail (.single (demo_dep.2 (by decide) : ObjDep id demo.reg 3 2)) (demo_dep.2 (by decide))

/-! ### C44 -/

/-- C44: a source that does not exist: its own work function succeeds, a successful build updates it
and everything that depends on it, it is still missing afterwards (so the next build does the same). -/
theorem C44_missing_source (hS : Sound P canon) (hroot : Registered P.reg root)
    (hk : P.kind root ≠ .other) (hacc : Accurate P fs0 cache0) {x : Nat} (hxk : P.kind x = .source)
    (hxc : Closure canon P.reg root x) (hmiss : fs0 (P.path x) = none)
    (hx : B.Run clock0 tr s) :
    (∀ w i r, Solver.Ev.finish w i r ∈ sched tr → B.objs[i]? = some x → r = .ok) ∧
    (s.Succeeded → ∀ o, Closure canon P.reg root o → Closure canon P.reg o x →
      o ∈ B.updates tr) ∧
    s.fs (P.path x) = none := by
  refine ⟨?_, ?_, ?_⟩
  · have key : ∀ tr s, B.Run clock0 tr s → ∀ w i r, Solver.Ev.finish w i r ∈ sched tr →
        B.objs[i]? = some x → r = .ok := by
      intro tr s hx
      induction hx with
      | nil => intro w i r h; cases h
      | @snoc tr s e s' hy hst ih =>
        intro w i r hf hi
        rw [sched_append] at hf
        rcases List.mem_append.1 hf with hf | hf
        · exact ih w i r hf hi
        · have he : e = .sched (.finish w i r) := by
            have := mem_sched.1 hf
            exact (List.mem_singleton.1 this).symm
          subst he
          simp only [step] at hst
          split at hst
          · cases hst
          · rw [hi] at hst
            simp only at hst
            split at hst
            · rename_i p hfe
              have hreg := closure_registered hroot hxc
              unfold finishEffect at hfe
              rw [hxk] at hfe
              simp only at hfe
              have hne := need_closure hS hroot hk B hxc
              split at hfe
              · rename_i hr
                by_cases h : NeedsWork P canon (view fs0 cache0) x
                · rw [hne.1.2 h] at hr; cases hr
                · rw [hne.2.2 h] at hr; cases hr
              · split at hfe
                · assumption
                · cases hfe
              · split at hfe
                · assumption
                · cases hfe
            · cases hst
    exact key tr s hx
  · intro hs o ho hox
    obtain ⟨i, w, w', hi, hst, _⟩ := Succeeded.finished hS hroot hx hs ho
    unfold Invocation.updates
    rw [mem_updateCalls]
    refine ⟨(need_closure hS hroot hk B ho).1.2 ⟨x, hox, ?_⟩, w', i, hst, hi⟩
    unfold OutOfDate
    rw [hxk]
    refine Or.inr (Or.inl ?_)
    rw [hacc x (closure_registered hroot hxc) (Or.inr (Or.inl hxk)), fileinfo_exist, hmiss]
    rfl
  · rw [source_unchanged hS hroot hx (closure_registered hroot hxc) hxk, hmiss]

/-- an empty directory: the source is missing -/
def demoB4 : Invocation demo id 4 (fun _ => none) [] := .of (lim := 10) (lim' := 10) (n := 1) _ demo_all rfl rfl rfl

/-- Non-vacuity of C44: a successful build although `a.c` is missing. -/
example : ∃ s, demoB4.Run 7 demoTr s ∧ s.Succeeded ∧ demoB4.updates demoTr = [0, 1, 2, 3, 4] ∧
    Closure id demo.reg 4 0 := by
  refine ⟨_, run_iff.2 rfl, ⟨rfl, rfl⟩, by decide +kernel, ?_⟩
  exact .tail (.tail (.single (demo_dep.2 (by decide) : ObjDep id demo.reg 4 3))
    (demo_dep.2 (by decide) : ObjDep id demo.reg 3 2)) (demo_dep.2 (by decide))

/-! ### C38 -/

/-- C38, proved part: a build command failed (returned `False` or raised) and did not write its
target file.  Then the target is out of date for a new process, provided commands that report
success write their target, the time stamps are older than the build, and the target did not exist
or all directories it depends on did.
Missing: commands that fail after writing the target (`C38_violated`), and existing targets that were out of date because a
directory they depend on was missing (`C38_violated_dir`). -/
theorem C38_partial (hS : Sound P canon) (hroot : Registered P.reg root)
    (hk : P.kind root ≠ .other) (hacc : Accurate P fs0 cache0)
    (ht : ∀ p e, fs0 p = some e → e.mtime < clock0)
    (hx : B.Run clock0 tr s) (hp : Productive B tr)
    {w i o : Nat} {r : Solver.Ret} (hf : Solver.Ev.finish w i r ∈ sched tr) (hr : r ≠ .ok)
    (hi : B.objs[i]? = some o) (hko : P.kind o = .file) (hnw : ∀ v, Ev.write i v ∉ tr)
    (hdir : fs0 (P.path o) = none ∨
      ∀ b, Closure canon P.reg o b → P.kind b = .dir → (fs0 (P.path b)).isSome) :
    NeedsWork P canon (view s.fs []) o := by
  have hcl := B.closure hS hroot hi
  have hreg := closure_registered hroot hcl
  obtain ⟨dep, I, hdep⟩ := B.inv hS hroot hx
  have hstart : i ∈ Solver.starts (sched tr) := I.endsStarted i (Solver.mem_ends.2 ⟨w, r, hf⟩)
  have hnowr : ¬ Written B tr o := by
    rintro ⟨j, v, hm, hj⟩
    have := B.idx hS hroot hi hj
    subst this
    exact hnw v hm
  have hsame := unwritten hS hroot hx hreg (Or.inl hko) hnowr
  have hmiss : fs0 (P.path o) = none → NeedsWork P canon (view s.fs []) o := by
    intro h
    refine ⟨o, .refl, ?_⟩
    unfold OutOfDate
    rw [hko]
    refine Or.inr (Or.inl ?_)
    show (fileinfo s.fs (P.path o)).exist = false
    rw [fileinfo_exist, hsame, h]; rfl
  cases h0 : fs0 (P.path o) with
  | none => exact hmiss h0
  | some e0 =>
  rw [h0] at hdir
  have hdir : ∀ b, Closure canon P.reg o b → P.kind b = .dir → (fs0 (P.path b)).isSome := by
    rcases hdir with h | h
    · cases h
    · exact h
  -- its update was called
  have hcalls : work P.reg B.need o = .calls := by
    have key : ∀ tr s, B.Run clock0 tr s → Solver.Ev.finish w i r ∈ sched tr →
        work P.reg B.need o = .calls := by
      intro tr s hx
      induction hx with
      | nil => intro h; cases h
      | @snoc tr s e s' hy hst ih =>
        intro hf
        rw [sched_append] at hf
        rcases List.mem_append.1 hf with hf | hf
        · exact ih hf
        · have he : e = .sched (.finish w i r) := by
            have := mem_sched.1 hf
            exact (List.mem_singleton.1 this).symm
          subst he
          simp only [step] at hst
          split at hst
          · cases hst
          · rw [hi] at hst
            simp only at hst
            split at hst
            · rename_i p hfe
              unfold finishEffect at hfe
              rw [hko] at hfe
              simp only at hfe
              have hne := need_closure hS hroot hk B hcl
              split at hfe
              · rename_i hr
                by_cases h : NeedsWork P canon (view fs0 cache0) o
                · exact hne.1.2 h
                · rw [hne.2.2 h] at hr; cases hr
              · split at hfe
                · exact absurd ‹_› hr
                · cases hfe
              · assumption
            · cases hst
    exact key tr s hx hf
  -- a written input makes it out of date
  have hwritten : ∀ z, InputOf P canon o z → Written B tr z → NeedsWork P canon (view s.fs []) o := by
    rintro z hz ⟨j, v, hm, hj⟩
    obtain ⟨t, v', h1, h2⟩ := written_file hx j v z hm hj
    refine ⟨o, .refl, ?_⟩
    unfold OutOfDate
    rw [hko]
    refine Or.inr (Or.inr ⟨z, hz, ?_⟩)
    show (fileinfo s.fs (P.path z)).mtime > (fileinfo s.fs (P.path o)).mtime
    simp only [fileinfo, h1, hsame, h0]
    exact lt_of_lt_of_le (ht _ _ h0) h2
  obtain ⟨o', hoo', hood⟩ := (needsWork_congr hreg hacc).1 ((need_closure hS hroot hk B hcl).1.1 hcalls)
  have hcl' := ReflTransGen.trans hcl hoo'
  -- files below that needed work have been written
  have hwr : ∀ z, TransGen (ObjDep canon P.reg) o z → P.kind z = .file →
      NeedsWork P canon (fileinfo fs0) z → Written B tr z := by
    intro z hz hkz hn
    have hclz := ReflTransGen.trans hcl hz.to_reflTransGen
    obtain ⟨j, w', hj, hfj⟩ := deps_finished hS hroot hx hstart hi hz
    have hwz := (need_closure hS hroot hk B hclz).1.2
      ((needsWork_congr (closure_registered hroot hclz) hacc).2 hn)
    have hsj : j ∈ Solver.starts (sched tr) := I.endsStarted j (Solver.mem_ends.2 ⟨w', _, hfj⟩)
    obtain ⟨w'', hw''⟩ := Solver.mem_starts.1 hsj
    obtain ⟨v, hv⟩ := hp w' j z (mem_sched.1 hfj) hj (by
      unfold Invocation.commands Invocation.updates
      rw [List.mem_filter, mem_updateCalls]
      exact ⟨⟨hwz, w'', j, hw'', hj⟩, by simp [hkz]⟩)
    exact ⟨j, v, hv, hj⟩
  rcases reflTransGen_iff_eq_or_transGen.1 hoo' with rfl | htr
  · unfold OutOfDate at hood
    rw [hko] at hood
    rcases hood with h | h | ⟨z, hz, hlt⟩
    · exact ⟨o', .refl, by unfold OutOfDate; rw [hko]; exact Or.inl h⟩
    · rw [fileinfo_exist, h0] at h; cases h
    · by_cases hwz : Written B tr z
      · exact hwritten z hz hwz
      · refine ⟨o', .refl, ?_⟩
        unfold OutOfDate
        rw [hko]
        refine Or.inr (Or.inr ⟨z, hz, ?_⟩)
        show (fileinfo s.fs (P.path z)).mtime > (fileinfo s.fs (P.path o')).mtime
        rw [fileinfo_congr hsame, fileinfo_congr (unwritten hS hroot hx hz.registered hz.kind hwz)]
        exact hlt
  · cases hko' : P.kind o' with
    | file =>
      obtain ⟨z, hz1, hz2⟩ := first_file hS (Or.inl hko) (Or.inl hko') htr
      have hkz : P.kind z = .file := by
        rcases hz1.kind with h | h
        · exact h
        · rcases reflTransGen_iff_eq_or_transGen.1 hz2 with rfl | h'
          · exact hko'
          · have := dir_trans hS (Or.inl h) h'
            rw [hko'] at this; cases this
      exact hwritten z hz1 (hwr z hz1.trans hkz ⟨o', hz2, hood⟩)
    | source =>
      refine ⟨o', hoo', ?_⟩
      unfold OutOfDate at hood ⊢
      rw [hko'] at hood ⊢
      rcases hood with h | h | ⟨z, hz, _⟩
      · exact Or.inl h
      · refine Or.inr (Or.inl ?_)
        show (fileinfo s.fs (P.path o')).exist = false
        rw [fileinfo_congr (source_unchanged hS hroot hx (closure_registered hroot hcl') hko')]
        exact h
      · exact absurd hz (source_no_input hS (Or.inl hko'))
    | dir =>
      unfold OutOfDate at hood
      rw [hko'] at hood
      simp only [fileinfo_exist] at hood
      have := hdir o' hoo' hko'
      rw [hood] at this; cases this
    | fileset => unfold OutOfDate at hood; rw [hko'] at hood; exact hood.elim
    | other => exact absurd hko' (closure_kind hS hk hcl')

/-- Non-vacuity of C38_partial: the command of `d/a.o` fails without writing. -/
example : ∃ s, demoB.Run 7 [.sched (.start 0 0), .sched (.finish 0 0 .ok), .sched (.start 0 2),
    .sched (.finish 0 2 .ok), .sched (.start 0 3), .sched (.finish 0 3 .fail)] s ∧
    NeedsWork demo id (view s.fs []) 2 := by
  have hx : demoB.Run 7 [.sched (.start 0 0), .sched (.finish 0 0 .ok), .sched (.start 0 2),
    .sched (.finish 0 2 .ok), .sched (.start 0 3), .sched (.finish 0 3 .fail)] _ := run_iff.2 rfl
  exact ⟨_, hx, C38_partial demo_sound demo_root (by decide) (accurate_nil _ _) demo_old hx
    (productive_of (by decide +kernel)) (w := 0) (i := 3) (r := .fail) (by simp [sched]) (by decide) rfl rfl
    (by simp) (Or.inl rfl)⟩

/-- C38 is false of the code: the command of `d/a.o` writes something and reports failure; a new
process finds `d/a.o` up to date and a following build does not run its command again. -/
theorem C38_violated : ∃ (s : St Nat) (B' : Invocation demo id 4 s.fs []),
    demoB.Run 7 demoTrGarbage s ∧ demoB.objs[3]? = some 2 ∧
    Ev.sched (.finish 0 3 .fail) ∈ demoTrGarbage ∧
    ¬ NeedsWork demo id (view s.fs []) 2 ∧
    ∀ clock tr' s', B'.Run clock tr' s' → 2 ∉ B'.commands tr' := by
  have hcl : Closure id demo.reg 4 2 :=
    .tail (.single (demo_dep.2 (by decide) : ObjDep id demo.reg 4 3)) (demo_dep.2 (by decide))
  have hw : work demo.reg demoBG.need 2 = .skips := by decide +kernel
  refine ⟨demoSG, demoBG, run_iff.2 rfl, rfl, by simp [demoTrGarbage],
    (need_closure demo_sound demo_root (by decide) demoBG hcl).2.1 hw, ?_⟩
  intro clock tr' s' _ hm
  unfold Invocation.commands Invocation.updates at hm
  rw [List.mem_filter, mem_updateCalls] at hm
  rw [hw] at hm
  cases hm.1.1

/-! The other way: source `a.c`, directory `log`, and `a.o`, which depends on both and exists; `log` does not. -/

def logProj : Proj Nat where
  reg :=
    { targets := [("a.c", 0), ("log", 1), ("a.o", 2)]
      obj := fun
        | 0 => ⟨"a.c", [], true, [], "makefile"⟩
        | 1 => ⟨"log", [], true, [], "makefile"⟩
        | 2 => ⟨"a.o", ["a.c", "log"], true, [], "makefile"⟩
        | _ => ⟨"", [], false, [], "action"⟩
      next := 3 }
  kind := fun
    | 0 => .source
    | 1 => .dir
    | 2 => .file
    | _ => .other
  force := fun _ => false
  upd := fun _ => .ok false
  cmd := fun _ f => (f "a.c").getD 0 + 10
  parents := fun _ => []

def logFs : FS Nat := fun p => if p = "a.c" then some ⟨1, some 5⟩ else if p = "a.o" then some ⟨2, some 14⟩ else none

theorem log_all : ∀ o, o ∈ [0, 1, 2] ↔ Registered logProj.reg o ∧ (logProj.reg.obj o).upd = true := by
  intro o
  simp only [List.mem_cons, List.not_mem_nil, or_false]
  constructor
  · rintro (rfl | rfl | rfl)
    · exact ⟨⟨"a.c", rfl⟩, rfl⟩
    · exact ⟨⟨"log", rfl⟩, rfl⟩
    · exact ⟨⟨"a.o", rfl⟩, rfl⟩
  · rintro ⟨⟨n, hn⟩, _⟩
    have := Dict.mem_of_get hn
    simp only [logProj, List.mem_cons, Prod.mk.injEq, List.not_mem_nil, or_false] at this
    omega

def logB : Invocation logProj id 2 logFs [] := .of (lim := 10) (lim' := 10) (n := 1) _ log_all rfl rfl rfl

/-- `log` is made, then the command of `a.o` fails and writes nothing; numbers 0: `a.c`, 1: `a.o`, 2: `log` -/
def logTr : List (Ev Nat) :=
  [.sched (.start 0 0), .sched (.finish 0 0 .ok), .sched (.start 0 2), .sched (.finish 0 2 .ok),
   .sched (.start 0 1), .sched (.finish 0 1 .fail)]

def logS : St Nat := (runEvs logProj logB.need logB.objs logB.g (logB.start 7) logTr).getD (logB.start 7)

def logB2 : Invocation logProj id 2 logS.fs [] := .of (lim := 10) (lim' := 10) (n := 1) _ log_all rfl rfl rfl

/-- C38 is false of the code also for commands that write nothing: `a.o` exists, but is built again because the directory `log`
it depends on is missing; its command fails.  Now the directory exists, and no following build runs the command again. -/
theorem C38_violated_dir : ∃ (s : St Nat) (B' : Invocation logProj id 2 s.fs []),
    logB.Run 7 logTr s ∧ logB.commands logTr = [2] ∧ logB.objs[1]? = some 2 ∧
    Ev.sched (.finish 0 1 .fail) ∈ logTr ∧ (∀ i v, Ev.write i v ∉ logTr) ∧
    ∀ clock tr' s', B'.Run clock tr' s' → B'.commands tr' = [] := by
  have hw : ∀ o ∈ [0, 1, 2], work logProj.reg logB2.need o = .skips := by decide +kernel
  refine ⟨logS, logB2, run_iff.2 rfl, by decide +kernel, rfl, by simp [logTr], by simp [logTr], ?_⟩
  intro clock tr' s' _
  rw [List.eq_nil_iff_forall_not_mem]
  intro o hm
  unfold Invocation.commands Invocation.updates at hm
  rw [List.mem_filter, mem_updateCalls] at hm
  obtain ⟨⟨hc, w, i, _, hi⟩, _⟩ := hm
  have ho : o ∈ logB2.objs := List.mem_of_getElem? hi
  have : o ∈ [0, 1, 2] := by
    have h : ∀ o ∈ logB2.objs, o ∈ [0, 1, 2] := by decide +kernel
    exact h o ho
  rw [hw o this] at hc
  cases hc

end Licant.Make
