/-
Builds: invariants of runs.
-/
import Verif.Make.Build

set_option autoImplicit false

namespace Licant.Make
open Licant.Py Licant.Core Relation

variable {α : Type} {P : Proj α} {canon : String → String} {root : Nat} {fs0 : FS α}
  {cache0 : FileCache} {B : Invocation P canon root fs0 cache0} {clock0 : Nat} {s : St α}
  {tr : List (Ev α)}

theorem Invocation.prep (hS : Sound P canon) (hroot : Registered P.reg root)
    (B : Invocation P canon root fs0 cache0) :
    Prepared canon P.reg root B.objs B.ds ∧
    ∃ order lim, Solver.IsOrder order ∧ Solver.construct order lim B.ds = .ok B.g := by
  obtain ⟨setOrder, order, lim, ca, rt, threads, h1, h2, h3, h4⟩ := B.prepared
  obtain ⟨cache', hp, hg, _⟩ := recurseUpdate_ok h4
  exact ⟨prepare_ok h1 (resolves_self hS.consistent hroot) h3 hp, order, lim, h2, hg⟩

theorem Invocation.Run.exec (h : B.Run clock0 tr s) : Solver.Exec B.g B.n (sched tr) s.sol :=
  Make.Run.exec (n := B.n) rfl h

theorem Invocation.inv (hS : Sound P canon) (hroot : Registered P.reg root)
    (h : B.Run clock0 tr s) :
    ∃ dep, Solver.PInv B.g dep B.n (sched tr) s.sol ∧ ∀ i j, j ∈ dep i ↔ Solver.DependsOn B.ds i j := by
  obtain ⟨_, order, lim, ho, hg⟩ := B.prep hS hroot
  obtain ⟨_, _, _, _, dep, hwf, hdep⟩ := Solver.accepted ho hg
  exact ⟨dep, Solver.inv_of_exec hwf h.exec, hdep⟩

theorem Invocation.idx (hS : Sound P canon) (hroot : Registered P.reg root)
    (B : Invocation P canon root fs0 cache0) {i j o : Nat}
    (hi : B.objs[i]? = some o) (hj : B.objs[j]? = some o) : i = j := by
  obtain ⟨h1, h1'⟩ := List.getElem?_eq_some_iff.1 hi
  obtain ⟨h2, h2'⟩ := List.getElem?_eq_some_iff.1 hj
  exact ((B.prep hS hroot).1.nodup.getElem_inj_iff).1 (h1'.trans h2'.symm)

theorem Invocation.reg (hS : Sound P canon) (hroot : Registered P.reg root)
    (B : Invocation P canon root fs0 cache0) {i o : Nat} (hi : B.objs[i]? = some o) :
    Registered P.reg o :=
  (B.prep hS hroot).1.registered hroot (List.mem_of_getElem? hi)

/-- when a target has been started, everything it depends on has been finished successfully -/
theorem deps_finished (hS : Sound P canon) (hroot : Registered P.reg root) (h : B.Run clock0 tr s)
    {i o o' : Nat} (hst : i ∈ Solver.starts (sched tr)) (hi : B.objs[i]? = some o)
    (ht : TransGen (ObjDep canon P.reg) o o') :
    ∃ j w, B.objs[j]? = some o' ∧ Solver.Ev.finish w j .ok ∈ sched tr := by
  obtain ⟨dep, I, hdep⟩ := B.inv hS hroot h
  have Pr := (B.prep hS hroot).1
  obtain ⟨j, hj, htd⟩ := (Pr.trans hS.consistent hroot hi).2 o' ht
  have : ∀ k, TransGen (Solver.DependsOn B.ds) i k → ∃ w, Solver.Ev.finish w k .ok ∈ sched tr := by
    intro k hk
    induction hk with
    | single hd => exact I.depsOk i hst _ ((hdep _ _).2 hd)
    | @tail y z _ hyz ih =>
      obtain ⟨w, hw⟩ := ih
      exact I.depsOk y (I.endsStarted y (Solver.mem_ends.2 ⟨w, _, hw⟩)) z ((hdep _ _).2 hyz)
  obtain ⟨w, hw⟩ := this j htd
  exact ⟨j, w, hj, hw⟩

theorem not_running (hS : Sound P canon) (hroot : Registered P.reg root) (h : B.Run clock0 tr s)
    {w j : Nat} {r : Solver.Ret} (hf : Solver.Ev.finish w j r ∈ sched tr) :
    Solver.WS.run j ∉ s.sol.ws := by
  intro hm
  obtain ⟨dep, I, _⟩ := B.inv hS hroot h
  obtain ⟨w', hw'⟩ := List.getElem?_of_mem hm
  exact (I.runs w' j hw').2 (Solver.mem_ends.2 ⟨w, r, hf⟩)

theorem running_started (hS : Sound P canon) (hroot : Registered P.reg root) (h : B.Run clock0 tr s)
    {j : Nat} (hm : Solver.WS.run j ∈ s.sol.ws) : j ∈ Solver.starts (sched tr) := by
  obtain ⟨dep, I, _⟩ := B.inv hS hroot h
  obtain ⟨w', hw'⟩ := List.getElem?_of_mem hm
  exact (I.runs w' j hw').1

theorem starts_mono {tr : List (Ev α)} {e : Ev α} {i : Nat} (h : i ∈ Solver.starts (sched tr)) :
    i ∈ Solver.starts (sched (tr ++ [e])) := by
  rw [sched_append, Solver.starts_append]
  exact List.mem_append_left _ h

/-! ### time and writes -/

theorem clock_le (h : B.Run clock0 tr s) : clock0 ≤ s.clock := by
  induction h with
  | nil => exact le_refl _
  | snoc _ hst ih => exact le_trans ih (step_clock hst)

theorem write_info (hS : Sound P canon) (hroot : Registered P.reg root) (h : B.Run clock0 tr s) :
    ∀ i v, Ev.write i v ∈ tr → i ∈ Solver.starts (sched tr) ∧
      ∃ o, B.objs[i]? = some o ∧ P.kind o = .file ∧ work P.reg B.need o = .calls := by
  induction h with
  | nil => intro i v h; cases h
  | @snoc tr s e s' hx hst ih =>
    intro i v hm
    rcases List.mem_append.1 hm with hm | hm
    · exact ⟨starts_mono (ih i v hm).1, (ih i v hm).2⟩
    · rw [List.mem_singleton] at hm; subst hm
      cases fsStep hst with
      | same _ hne => exact absurd rfl (hne i v)
      | write ho hrun hk hw _ =>
        exact ⟨starts_mono (running_started hS hroot hx hrun), _, ho, hk, hw⟩

theorem makedirs_some {fs : FS α} {c : Nat} {p q : String} {e : Entry α} (h : fs q = some e) :
    makedirs P fs c p q = some e := by
  simp [makedirs, h]

/-- what can have happened to a path -/
theorem fs_change (h : B.Run clock0 tr s) (p : String) :
    s.fs p = fs0 p ∨
    (∃ i v o t v', Ev.write i v ∈ tr ∧ B.objs[i]? = some o ∧ P.kind o = .file ∧ P.path o = p ∧
      clock0 ≤ t ∧ s.fs p = some ⟨t, some v'⟩) ∨
    (fs0 p = none ∧ ∃ t b j w, clock0 ≤ t ∧ s.fs p = some ⟨t, none⟩ ∧ B.objs[j]? = some b ∧
      P.kind b = .dir ∧ Solver.Ev.finish w j .ok ∈ sched tr ∧
      (p = P.path b ∨ p ∈ P.parents (P.path b))) := by
  induction h with
  | nil => exact Or.inl rfl
  | @snoc tr s e s' hx hst ih =>
    have hclk : clock0 ≤ s.clock := clock_le (B := B) hx
    have keep : s'.fs p = s.fs p → s'.fs p = fs0 p ∨
      (∃ i v o t v', Ev.write i v ∈ tr ++ [e] ∧ B.objs[i]? = some o ∧ P.kind o = .file ∧ P.path o = p ∧
        clock0 ≤ t ∧ s'.fs p = some ⟨t, some v'⟩) ∨
      (fs0 p = none ∧ ∃ t b j w, clock0 ≤ t ∧ s'.fs p = some ⟨t, none⟩ ∧ B.objs[j]? = some b ∧
        P.kind b = .dir ∧ Solver.Ev.finish w j .ok ∈ sched (tr ++ [e]) ∧
        (p = P.path b ∨ p ∈ P.parents (P.path b))) := by
      intro heq
      rw [heq]
      rcases ih with h | ⟨i, v, o, t, v', h1, h2⟩ | ⟨h1, t, b, j, w, h2, h3, h4, h5, h6, h7⟩
      · exact Or.inl h
      · exact Or.inr (Or.inl ⟨i, v, o, t, v', List.mem_append_left _ h1, h2⟩)
      · refine Or.inr (Or.inr ⟨h1, t, b, j, w, h2, h3, h4, h5, ?_, h7⟩)
        rw [sched_append]; exact List.mem_append_left _ h6
    cases fsStep hst with
    | same hfs _ => exact keep (by rw [hfs])
    | @write i v o ho _ hk _ hfs =>
      by_cases hp : p = P.path o
      · subst hp
        refine Or.inr (Or.inl ⟨i, v, o, s.clock, v, by simp, ho, hk, rfl, hclk, ?_⟩)
        rw [hfs]; simp [setFile]
      · exact keep (by rw [hfs]; simp [setFile, hp])
    | @mkdir w i o ho hk hnone _ hfs =>
      cases hsp : s.fs p with
      | some e => exact keep (by rw [hfs, makedirs_some hsp, hsp])
      | none =>
        by_cases hq : p = P.path o ∨ p ∈ P.parents (P.path o)
        · have h0 : fs0 p = none := by
            rcases ih with h | ⟨_, _, _, _, _, _, _, _, _, _, h⟩ | ⟨h, _⟩
            · rw [← h, hsp]
            · rw [hsp] at h; cases h
            · exact h
          refine Or.inr (Or.inr ⟨h0, s.clock, o, i, w, hclk, ?_, ho, hk, by simp, hq⟩)
          rw [hfs]; simp [makedirs, hsp, hq]
        · exact keep (by rw [hfs, hsp]; simp [makedirs, hsp, hq])

theorem fs_keep (h : B.Run clock0 tr s) {p : String} (hp : (fs0 p).isSome) : (s.fs p).isSome := by
  rcases fs_change h p with h | ⟨_, _, _, _, _, _, _, _, _, _, h⟩ | ⟨h, _⟩
  · rw [h]; exact hp
  · rw [h]; rfl
  · rw [h] at hp; cases hp

theorem step_keep {s' : St α} {e : Ev α} (hst : step P B.need B.objs B.g s e = some s') {p : String}
    (hp : (s.fs p).isSome) : (s'.fs p).isSome := by
  cases fsStep hst with
  | same hfs _ => rw [hfs]; exact hp
  | write _ _ _ _ hfs => rw [hfs]; simp only [setFile]; split <;> simp [hp]
  | mkdir _ _ _ _ hfs =>
    obtain ⟨e, he⟩ := Option.isSome_iff_exists.1 hp
    rw [hfs, makedirs_some he]; rfl

theorem written_file (h : B.Run clock0 tr s) :
    ∀ i v o, Ev.write i v ∈ tr → B.objs[i]? = some o →
    ∃ t v', s.fs (P.path o) = some ⟨t, some v'⟩ ∧ clock0 ≤ t := by
  induction h with
  | nil => intro i v o h; cases h
  | @snoc tr s e s' hx hst ih =>
    have hclk : clock0 ≤ s.clock := clock_le (B := B) hx
    intro i v o hm ho
    have old : Ev.write i v ∈ tr → ∃ t v', s'.fs (P.path o) = some ⟨t, some v'⟩ ∧ clock0 ≤ t := by
      intro hm
      obtain ⟨t, v', h1, h2⟩ := ih i v o hm ho
      cases fsStep hst with
      | same hfs _ => exact ⟨t, v', by rw [hfs, h1], h2⟩
      | @write i1 v1 o1 ho1 _ _ _ hfs =>
        by_cases hp : P.path o = P.path o1
        · exact ⟨s.clock, v1, by rw [hfs]; simp [setFile, hp], hclk⟩
        · exact ⟨t, v', by rw [hfs]; simp [setFile, hp, h1], h2⟩
      | mkdir _ _ _ _ hfs => exact ⟨t, v', by rw [hfs, makedirs_some h1], h2⟩
    rcases List.mem_append.1 hm with hm | hm
    · exact old hm
    · rw [List.mem_singleton] at hm; subst hm
      cases fsStep hst with
      | same _ hne => exact absurd rfl (hne i v)
      | write ho1 _ _ _ hfs =>
        rw [ho] at ho1; cases ho1
        exact ⟨s.clock, v, by rw [hfs]; simp [setFile], hclk⟩

theorem mtimes_le (h : B.Run clock0 tr s) (h0 : ∀ p e, fs0 p = some e → e.mtime ≤ clock0) :
    ∀ p e, s.fs p = some e → e.mtime ≤ s.clock := by
  induction h with
  | nil => exact h0
  | @snoc tr s e s' hx hst ih =>
    have hc := step_clock hst
    intro p x hp
    cases fsStep hst with
    | same hfs _ => rw [hfs] at hp; exact le_trans (ih p x hp) hc
    | write _ _ _ _ hfs =>
      rw [hfs] at hp
      simp only [setFile] at hp
      split at hp
      · cases hp; exact hc
      · exact le_trans (ih p x hp) hc
    | mkdir _ _ _ _ hfs =>
      rw [hfs] at hp
      simp only [makedirs] at hp
      split at hp
      · rename_i y hy; cases hp; exact le_trans (ih p _ hy) hc
      · split at hp
        · cases hp; exact hc
        · cases hp

/-- file target `o` has been written in the run -/
def Written (B : Invocation P canon root fs0 cache0) (tr : List (Ev α)) (o : Nat) : Prop :=
  ∃ i v, Ev.write i v ∈ tr ∧ B.objs[i]? = some o

theorem path_inj (hS : Sound P canon) {o o' : Nat} (h : Registered P.reg o) (h' : Registered P.reg o')
    (he : P.path o = P.path o') : o = o' := tgt_inj hS.consistent h h' he

/-- files and sources that were not written are unchanged -/
theorem unwritten (hS : Sound P canon) (hroot : Registered P.reg root) (h : B.Run clock0 tr s) {o : Nat}
    (ho : Registered P.reg o) (hk : P.kind o = .file ∨ P.kind o = .source)
    (hw : ¬ Written B tr o) : s.fs (P.path o) = fs0 (P.path o) := by
  rcases fs_change h (P.path o) with h1 | ⟨i, v, o1, t, v', h1, h2, h3, h4, _⟩ |
    ⟨_, t, b, j, w, _, _, hb, hkb, _, hp⟩
  · exact h1
  · have := path_inj hS (B.reg hS hroot h2) ho h4
    subst this
    exact absurd ⟨i, v, h1, h2⟩ hw
  · exfalso
    have hrb := B.reg hS hroot hb
    rcases hp with hp | hp
    · have := path_inj hS ho hrb hp
      subst this
      rcases hk with hk | hk <;> rw [hk] at hkb <;> cases hkb
    · rcases hS.ancestors b o hrb hkb ho hp with h1 | h1 | ⟨h1, _⟩ <;>
        rcases hk with hk | hk <;> rw [hk] at h1 <;> cases h1

theorem source_unchanged (hS : Sound P canon) (hroot : Registered P.reg root) (h : B.Run clock0 tr s)
    {o : Nat} (ho : Registered P.reg o) (hk : P.kind o = .source) : s.fs (P.path o) = fs0 (P.path o) := by
  refine unwritten hS hroot h ho (Or.inr hk) ?_
  rintro ⟨i, v, h1, h2⟩
  obtain ⟨_, o', h3, h4, _⟩ := write_info hS hroot h i v h1
  rw [h2] at h3; cases h3
  rw [hk] at h4; cases h4

/-! ### one step, seen from a registered file or source -/

/-- A file that a started target depends on is not touched any more. -/
theorem step_input (hS : Sound P canon) (hroot : Registered P.reg root) (h : B.Run clock0 tr s)
    {s' : St α} {e : Ev α} (hst : step P B.need B.objs B.g s e = some s') {i o o' : Nat}
    (hs : i ∈ Solver.starts (sched tr)) (hi : B.objs[i]? = some o) (hin : InputOf P canon o o') :
    s'.fs (P.path o') = s.fs (P.path o') := by
  obtain ⟨j, w, hj, hf⟩ := deps_finished hS hroot h hs hi hin.trans
  cases fsStep hst with
  | same hfs _ => rw [hfs]
  | @write i1 v1 o1 ho1 hrun _ _ hfs =>
    by_cases hp : P.path o' = P.path o1
    · exfalso
      have := path_inj hS hin.registered (B.reg hS hroot ho1) hp
      subst this
      have := B.idx hS hroot hj ho1
      subst this
      exact not_running hS hroot h hf hrun
    · rw [hfs]; simp [setFile, hp]
  | @mkdir w1 i1 o1 ho1 hk1 hnone _ hfs =>
    cases hsp : s.fs (P.path o') with
    | some e => rw [hfs, makedirs_some hsp]
    | none =>
      have hr1 := B.reg hS hroot ho1
      have : ¬ (P.path o' = P.path o1 ∨ P.path o' ∈ P.parents (P.path o1)) := by
        rintro (hp | hp)
        · have := path_inj hS hin.registered hr1 hp
          subst this
          rcases hin.kind with hk | hk <;> rw [hk] at hk1 <;> cases hk1
        · rcases hS.ancestors o1 o' hr1 hk1 hin.registered hp with h1 | h1 | ⟨h1, _⟩ <;>
            rcases hin.kind with hk | hk <;> rw [hk] at h1 <;> cases h1
      rw [hfs]; simp [makedirs, hsp, this]

theorem inputOf_irrefl (hS : Sound P canon) {o : Nat} : ¬ InputOf P canon o o :=
  fun h => hS.acyclic o h.trans

/-- a written file is at least as new as its inputs -/
theorem written_newer (hS : Sound P canon) (hroot : Registered P.reg root) (h : B.Run clock0 tr s)
    (h0 : ∀ p e, fs0 p = some e → e.mtime ≤ clock0) :
    ∀ o o' e e', Written B tr o → InputOf P canon o o' → s.fs (P.path o) = some e →
      s.fs (P.path o') = some e' → e'.mtime ≤ e.mtime := by
  induction h with
  | nil => rintro o o' e e' ⟨i, v, hm, _⟩; cases hm
  | @snoc tr s ev s' hx hst ih =>
    have hx' : B.Run clock0 tr s := hx
    rintro o o' e e' ⟨i, v, hm, hi⟩ hin he he'
    have hm0 : Ev.write i v ∈ tr ++ [ev] := hm
    cases fsStep hst with
    | same hfs hne =>
      have hm : Ev.write i v ∈ tr := by
        rcases List.mem_append.1 hm with hm | hm
        · exact hm
        · rw [List.mem_singleton] at hm; exact absurd hm.symm (hne i v)
      rw [hfs] at he he'
      exact ih o o' e e' ⟨i, v, hm, hi⟩ hin he he'
    | @write i1 v1 o1 ho1 hrun _ _ hfs =>
      have hio : i ∈ Solver.starts (sched tr) := by
        rcases List.mem_append.1 hm with hm | hm
        · exact (write_info hS hroot hx' i v hm).1
        · rw [List.mem_singleton] at hm; cases hm
          exact running_started hS hroot hx' hrun
      rw [step_input hS hroot hx' hst hio hi hin] at he'
      by_cases hp : P.path o = P.path o1
      · rw [hfs] at he
        simp only [setFile, hp, if_true] at he
        cases he
        exact mtimes_le hx' h0 _ _ he'
      · rw [hfs] at he
        simp only [setFile, hp, if_false] at he
        rcases List.mem_append.1 hm with hm | hm
        · exact ih o o' e e' ⟨i, v, hm, hi⟩ hin he he'
        · rw [List.mem_singleton] at hm; cases hm
          rw [hi] at ho1; cases ho1
          exact absurd rfl hp
    | @mkdir w1 i1 o1 ho1 hk1 hnone _ hfs =>
      have hm : Ev.write i v ∈ tr := by
        rcases List.mem_append.1 hm with hm | hm
        · exact hm
        · rw [List.mem_singleton] at hm; cases hm
      rw [step_input hS hroot hx' hst (write_info hS hroot hx' i v hm).1 hi hin] at he'
      obtain ⟨t, v', h1, _⟩ := written_file hx' i v o hm hi
      rw [hfs, makedirs_some h1] at he
      cases he
      exact ih o o' _ e' ⟨i, v, hm, hi⟩ hin h1 he'

theorem Faithful.prefix {tr tr' : List (Ev α)} (h : Faithful B clock0 (tr ++ tr')) :
    Faithful B clock0 tr := by
  intro pre post i v o s htr
  exact h pre (post ++ tr') i v o s (by rw [htr]; simp)

/-- in a faithful run, a written file has the contents its command makes from the present files -/
theorem written_content (hS : Sound P canon) (hroot : Registered P.reg root) (hF : Functional P canon)
    (h : B.Run clock0 tr s) (hfa : Faithful B clock0 tr) :
    ∀ o, Written B tr o → contents s.fs (P.path o) = some (P.cmd o (contents s.fs)) := by
  induction h with
  | nil => rintro o ⟨i, v, hm, _⟩; cases hm
  | @snoc tr s ev s' hx hst ih =>
    have hx' : B.Run clock0 tr s := hx
    have ih := ih hfa.prefix
    rintro o ⟨i, v, hm, hi⟩
    have hcmd : i ∈ Solver.starts (sched tr) →
        P.cmd o (contents s'.fs) = P.cmd o (contents s.fs) := by
      intro hio
      refine hF o _ _ ?_
      intro o' hin
      unfold contents
      rw [step_input hS hroot hx' hst hio hi hin]
    have hlast : ∀ i1 v1 o1, ev = .write i1 v1 → B.objs[i1]? = some o1 →
        v1 = P.cmd o1 (contents s.fs) := by
      rintro i1 v1 o1 rfl ho1
      exact hfa tr [] i1 v1 o1 s rfl ho1 hx'
    cases fsStep hst with
    | same hfs hne =>
      have hm : Ev.write i v ∈ tr := by
        rcases List.mem_append.1 hm with hm | hm
        · exact hm
        · rw [List.mem_singleton] at hm; exact absurd hm.symm (hne i v)
      rw [hcmd (write_info hS hroot hx' i v hm).1, hfs]
      exact ih o ⟨i, v, hm, hi⟩
    | @write i1 v1 o1 ho1 hrun _ _ hfs =>
      have hio : i ∈ Solver.starts (sched tr) := by
        rcases List.mem_append.1 hm with hm | hm
        · exact (write_info hS hroot hx' i v hm).1
        · rw [List.mem_singleton] at hm; cases hm
          exact running_started hS hroot hx' hrun
      rw [hcmd hio]
      by_cases hp : P.path o = P.path o1
      · have := path_inj hS (B.reg hS hroot hi) (B.reg hS hroot ho1) hp
        subst this
        rw [← hlast i1 v1 o rfl ho1, hfs]
        simp [contents, setFile]
      · have hm : Ev.write i v ∈ tr := by
          rcases List.mem_append.1 hm with hm | hm
          · exact hm
          · rw [List.mem_singleton] at hm; cases hm
            rw [hi] at ho1; cases ho1
            exact absurd rfl hp
        rw [← ih o ⟨i, v, hm, hi⟩, hfs]
        simp [contents, setFile, hp]
    | @mkdir w1 i1 o1 ho1 hk1 hnone _ hfs =>
      have hm : Ev.write i v ∈ tr := by
        rcases List.mem_append.1 hm with hm | hm
        · exact hm
        · rw [List.mem_singleton] at hm; cases hm
      rw [hcmd (write_info hS hroot hx' i v hm).1, ← ih o ⟨i, v, hm, hi⟩]
      obtain ⟨t, v', h1, _⟩ := written_file hx' i v o hm hi
      unfold contents
      rw [hfs, makedirs_some h1, h1]

/-! ### the file cache -/

/-- the ways a work function can end -/
theorem finish_cases {o : Nat} {r : Solver.Ret} {need : Nat → Option Bool} {fs' : FS α} {cache' : FileCache}
    (h : finishEffect P need s o r = some (fs', cache')) :
    (fs' = s.fs ∧ view fs' cache' = view s.fs s.cache ∧
      (P.kind o = .dir → r = .ok → (view s.fs s.cache (P.path o)).exist = true) ∧
      (P.kind o = .file → work P.reg need o = .calls → r = .raise)) ∨
    (fs' = s.fs ∧ cache' = updateInfo s.fs s.cache (P.path o) ∧ P.kind o ≠ .dir) ∨
    (P.kind o = .dir ∧ r = .ok ∧ s.fs (P.path o) = none ∧
      fs' = makedirs P s.fs s.clock (P.path o) ∧
      cache' = updateInfo fs' (getInfo s.fs s.cache (P.path o)).2 (P.path o)) := by
  unfold finishEffect at h
  cases hk : P.kind o with
  | dir =>
    simp only [hk, getInfo_fst] at h
    split at h
    · rename_i hex
      split at h
      · cases h
        exact Or.inl ⟨rfl, view_getInfo _ _, fun _ _ => hex, fun h => by cases h⟩
      · cases h
    · rename_i hex
      split at h
      · rename_i hf
        cases h
        exact Or.inr (Or.inr ⟨rfl, rfl, hf, rfl, rfl⟩)
      · cases h
        exact Or.inl ⟨rfl, view_getInfo _ _, fun _ h => (by cases h), fun h => by cases h⟩
      · cases h
  | file =>
    simp only [hk] at h
    split at h
    · split at h <;> cases h
      rename_i e _
      exact Or.inl ⟨rfl, rfl, fun h => (by cases h), fun _ h => by rw [e] at h; cases h⟩
    · split at h <;> cases h
      rename_i e _
      exact Or.inl ⟨rfl, rfl, fun h => (by cases h), fun _ h => by rw [e] at h; cases h⟩
    · split at h <;> cases h
      · rename_i e; exact Or.inl ⟨rfl, rfl, fun h => (by cases h), fun _ _ => e⟩
      · exact Or.inr (Or.inl ⟨rfl, rfl, by simp⟩)
  | source =>
    simp only [hk] at h
    split at h
    · split at h <;> cases h
      exact Or.inl ⟨rfl, rfl, fun h => (by cases h), fun h => by cases h⟩
    · split at h <;> cases h
      exact Or.inl ⟨rfl, rfl, fun h => (by cases h), fun h => by cases h⟩
    · split at h <;> cases h
      exact Or.inr (Or.inl ⟨rfl, rfl, by simp⟩)
  | fileset =>
    simp only [hk] at h
    split at h <;> split at h <;> cases h <;>
      exact Or.inl ⟨rfl, rfl, fun h => (by cases h), fun h => by cases h⟩
  | other =>
    simp only [hk] at h
    split at h
    · split at h <;> cases h
      exact Or.inl ⟨rfl, rfl, fun h => (by cases h), fun h => by cases h⟩
    · split at h <;> cases h
      exact Or.inl ⟨rfl, rfl, fun h => (by cases h), fun h => by cases h⟩
    · cases h
      exact Or.inl ⟨rfl, rfl, fun h => (by cases h), fun h => by cases h⟩

theorem view_congr {fs fs' : FS α} {cache : FileCache} {p : String} (h : fs p = fs' p) :
    view fs cache p = view fs' cache p := by
  unfold view fileinfo; rw [h]

theorem fileinfo_congr {fs fs' : FS α} {p : String} (h : fs p = fs' p) :
    fileinfo fs p = fileinfo fs' p := by
  unfold fileinfo; rw [h]

theorem fileinfo_exist {fs : FS α} {p : String} : (fileinfo fs p).exist = (fs p).isSome := by
  unfold fileinfo; cases fs p <;> rfl

/-- What the program believes is true during a build that began with true beliefs, except about
files that are being written; and finished directory targets exist. -/
theorem beliefs (hS : Sound P canon) (hroot : Registered P.reg root) (hacc : Accurate P fs0 cache0)
    (h : B.Run clock0 tr s) :
    (∀ o, Registered P.reg o → IsPath P o →
      (∀ i v, Ev.write i v ∈ tr → B.objs[i]? = some o →
        ∃ w r, Solver.Ev.finish w i r ∈ sched tr ∧ r ≠ .raise) →
      view s.fs s.cache (P.path o) = fileinfo s.fs (P.path o)) ∧
    (∀ w i o, Solver.Ev.finish w i .ok ∈ sched tr → B.objs[i]? = some o → P.kind o = .dir →
      (s.fs (P.path o)).isSome) := by
  induction h with
  | nil =>
    refine ⟨?_, by intro w i o h; cases h⟩
    intro o ho hp _
    exact (congrFun B.view1 (P.path o)).trans (hacc o ho hp)
  | @snoc tr s ev s' hx hst ih =>
    have hx' : B.Run clock0 tr s := hx
    obtain ⟨ih1, ih2⟩ := ih
    cases ev with
    | tick =>
      cases hst
      refine ⟨fun o ho hp hw => ih1 o ho hp fun i v hm hi => ?_, fun w i o hf => ih2 w i o (by simpa using hf)⟩
      simpa using hw i v (by simp [hm]) hi
    | write i1 v1 =>
      have hst' := hst
      simp only [step] at hst'
      split at hst'
      · rename_i o1 ho1
        split at hst'
        · rename_i hc
          cases hst'
          refine ⟨?_, fun w i o hf hi hk => step_keep (B := B) hst (ih2 w i o (by simpa using hf) hi hk)⟩
          intro o ho hp hw
          by_cases hpath : P.path o = P.path o1
          · exfalso
            have := path_inj hS ho (B.reg hS hroot ho1) hpath
            subst this
            obtain ⟨w, r, hf, _⟩ := hw i1 v1 (by simp) ho1
            exact not_running hS hroot hx' (by simpa using hf) hc.1
          · have hfs : (setFile s.fs (P.path o1) ⟨s.clock, some v1⟩) (P.path o) = s.fs (P.path o) := by
              simp [setFile, hpath]
            simp only
            rw [view_congr hfs, fileinfo_congr hfs]
            refine ih1 o ho hp fun i v hm hi => ?_
            simpa using hw i v (by simp [hm]) hi
        · cases hst'
      · cases hst'
    | sched e =>
      have hst' := hst
      simp only [step] at hst'
      split at hst'
      · cases hst'
      · rename_i sol hsol
        split at hst'
        · rename_i w1 i1 r1
          split at hst'
          · rename_i o1 ho1
            split at hst'
            · rename_i p hfe
              obtain ⟨fs', cache'⟩ := p
              have hr1 := B.reg hS hroot ho1
              have hrun1 : Solver.WS.run i1 ∈ s.sol.ws := by
                simp only [Solver.step] at hsol
                split at hsol
                · rename_i hc; exact List.mem_of_getElem? hc.1
                · cases hsol
              have hnot1 : ∀ w r, Solver.Ev.finish w i1 r ∉ sched tr :=
                fun w r hf => not_running hS hroot hx' hf hrun1
              have hdirw : ∀ o, P.kind o ≠ .file → ∀ i v, Ev.write i v ∈ tr → B.objs[i]? = some o → False := by
                intro o hk i v hm hi
                obtain ⟨_, o', h3, h4, _⟩ := write_info hS hroot hx' i v hm
                rw [hi] at h3; cases h3; exact hk h4
              -- conversion of the hypothesis for other objects
              have hconv : ∀ o, o ≠ o1 →
                  (∀ i v, Ev.write i v ∈ tr ++ [Ev.sched (.finish w1 i1 r1)] → B.objs[i]? = some o →
                    ∃ w r, Solver.Ev.finish w i r ∈ sched (tr ++ [Ev.sched (α := α) (.finish w1 i1 r1)]) ∧ r ≠ .raise) →
                  ∀ i v, Ev.write i v ∈ tr → B.objs[i]? = some o →
                    ∃ w r, Solver.Ev.finish w i r ∈ sched tr ∧ r ≠ .raise := by
                intro o hne hw i v hm hi
                obtain ⟨w, r, hf, hr⟩ := hw i v (by simp [hm]) hi
                rw [sched_append, sched_sched] at hf
                rcases List.mem_append.1 hf with hf | hf
                · exact ⟨w, r, hf, hr⟩
                · rw [List.mem_singleton] at hf; cases hf
                  rw [hi] at ho1; cases ho1
                  exact absurd rfl hne
              have hdone1 : ∀ o', TransGen (ObjDep canon P.reg) o1 o' → P.kind o' = .dir →
                  (s.fs (P.path o')).isSome := by
                intro o' ht hk'
                obtain ⟨j, w, hj, hf⟩ := deps_finished hS hroot hx'
                  (running_started hS hroot hx' hrun1) ho1 ht
                exact ih2 w j o' hf hj hk'
              have hold : ∀ w i o, Solver.Ev.finish w i .ok ∈ sched tr → B.objs[i]? = some o →
                  P.kind o = .dir → (s'.fs (P.path o)).isSome :=
                fun w i o hf hi hk => step_keep (B := B) hst (ih2 w i o hf hi hk)
              cases hst'
              simp only at hold ⊢
              rcases finish_cases hfe with ⟨rfl, hview, hdir, hfile⟩ | ⟨rfl, rfl, hnd⟩ | ⟨hkd, rfl, hnone, rfl, rfl⟩
              · refine ⟨?_, ?_⟩
                · intro o ho hp hw
                  rw [hview]
                  by_cases hne : o = o1
                  · subst hne
                    refine ih1 o ho hp fun i v hm hi => ?_
                    exfalso
                    have := B.idx hS hroot hi ho1
                    subst this
                    obtain ⟨_, o', h3, h4, h5⟩ := write_info hS hroot hx' i v hm
                    rw [hi] at h3; cases h3
                    have hraise := hfile h4 h5
                    obtain ⟨w, r, hf, hr⟩ := hw i v (by simp [hm]) hi
                    rw [sched_append, sched_sched] at hf
                    rcases List.mem_append.1 hf with hf | hf
                    · exact hnot1 w r hf
                    · rw [List.mem_singleton] at hf; cases hf
                      exact hr hraise
                  · exact ih1 o ho hp (hconv o hne hw)
                · intro w i o hf hi hk
                  rw [sched_append, sched_sched] at hf
                  rcases List.mem_append.1 hf with hf | hf
                  · exact hold w i o hf hi hk
                  · rw [List.mem_singleton] at hf; cases hf
                    obtain rfl : o = o1 := Option.some.inj (hi.symm.trans ho1)
                    have h1 := hdir hk rfl
                    rw [ih1 o hr1 (Or.inr (Or.inr hk)) (fun i v hm hi => (hdirw o (by rw [hk]; simp) i v hm hi).elim),
                      fileinfo_exist] at h1
                    exact h1
              · refine ⟨?_, ?_⟩
                · intro o ho hp hw
                  rw [view_updateInfo]
                  by_cases hne : o = o1
                  · subst hne; simp
                  · have : P.path o1 ≠ P.path o := fun e => hne (path_inj hS ho hr1 e.symm)
                    simp only [this, if_false]
                    exact ih1 o ho hp (hconv o hne hw)
                · intro w i o hf hi hk
                  rw [sched_append, sched_sched] at hf
                  rcases List.mem_append.1 hf with hf | hf
                  · exact hold w i o hf hi hk
                  · rw [List.mem_singleton] at hf; cases hf
                    rw [hi] at ho1; cases ho1
                    exact absurd hk hnd
              · refine ⟨?_, ?_⟩
                · intro o ho hp hw
                  rw [view_updateInfo]
                  by_cases hne : o = o1
                  · subst hne; simp
                  · have hpn : P.path o1 ≠ P.path o := fun e => hne (path_inj hS ho hr1 e.symm)
                    simp only [hpn, if_false]
                    have hfs : makedirs P s.fs s.clock (P.path o1) (P.path o) = s.fs (P.path o) := by
                      cases hso : s.fs (P.path o) with
                      | some e => exact makedirs_some hso
                      | none =>
                        have hnp : P.path o ∉ P.parents (P.path o1) := by
                          intro hpar
                          rcases hS.ancestors o1 o hr1 hkd ho hpar with h1 | h1 | ⟨h1, h2⟩
                          · rcases hp with h | h | h <;> rw [h] at h1 <;> cases h1
                          · rcases hp with h | h | h <;> rw [h] at h1 <;> cases h1
                          · have := hdone1 o h2 h1
                            rw [hso] at this; cases this
                        simp [makedirs, hso, hnp, Ne.symm hpn]
                    rw [fileinfo_congr hfs, view_congr hfs, view_getInfo]
                    exact ih1 o ho hp (hconv o hne hw)
                · intro w i o hf hi hk
                  rw [sched_append, sched_sched] at hf
                  rcases List.mem_append.1 hf with hf | hf
                  · exact hold w i o hf hi hk
                  · rw [List.mem_singleton] at hf; cases hf
                    rw [hi] at ho1; cases ho1
                    simp [makedirs, hnone]
            · cases hst'
          · cases hst'
        · rename_i hnf
          cases hst'
          have hconv : ∀ w i r, Solver.Ev.finish w i r ∈ sched (tr ++ [Ev.sched (α := α) e]) →
              Solver.Ev.finish w i r ∈ sched tr := by
            intro w i r hf
            rw [sched_append, sched_sched] at hf
            rcases List.mem_append.1 hf with hf | hf
            · exact hf
            · rw [List.mem_singleton] at hf
              exact absurd hf.symm (hnf w i r)
          refine ⟨fun o ho hp hw => ih1 o ho hp fun i v hm hi => ?_, fun w i o hf => ih2 w i o (hconv _ _ _ hf)⟩
          obtain ⟨w, r, hf, hr⟩ := hw i v (by simp [hm]) hi
          exact ⟨w, r, hconv _ _ _ hf, hr⟩

end Licant.Make
