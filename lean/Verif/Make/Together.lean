/-
Several processes that build the same project at the same time (C136).
-/
import Verif.Make.Stamps
import Verif.Make.Same
import Verif.Make.World

set_option autoImplicit false

namespace Licant.Make
open Licant.Py Licant.Core Relation

variable {α : Type} {P : Proj α} {canon : String → String}

/-! ### model -/

/-- A process that has called `core.do(root, "makefile")` (core.py:284, make.py:99-100) and has evaluated the needs: what it saw of the
files (`fs`), the state of its solver and its file cache (cache.py:31, one for each process). -/
structure Job (P : Proj α) (canon : String → String) where
  root : Nat
  fs : FS α
  B : Invocation P canon root fs []
  sol : Solver.St
  info : FileCache

/-- `makefile` has returned `True` -/
def Job.Succeeded (j : Job P canon) : Prop := j.sol.returned ∧ j.sol.verdict = true

/-- What happened: which process, its event, and the file system before. -/
abbrev Hist (α : Type) := List (Nat × Ev α × FS α)

/-- Processes with a common file system and clock.  Processes begin at any time.  While a process evaluates the needs (core.py:52-54) the
others go on; it looks at every path once (cache.py:19-31), at some moment up to the end of its evaluation (`launch`).  Then the events of
the processes (`step`: make.py:20-60, 70-80, 179-204; core.py:355-395; solver.py:113-154) alternate in any way.  A process that does nothing any
more may have been killed.  Simplification: nobody but the processes changes files. -/
inductive Shared (P : Proj α) (canon : String → String) (fs0 : FS α) (t0 : Nat) :
    Hist α → List (Job P canon) → FS α → Nat → Prop
  | start : Shared P canon fs0 t0 [] [] fs0 t0
  | launch {h js fs t} (root : Nat) (seen : FS α) (B : Invocation P canon root seen []) : Shared P canon fs0 t0 h js fs t →
      Registered P.reg root → P.kind root ≠ .other → (∀ p, ∃ f ∈ fs :: h.map (·.2.2), seen p = f p) →
      Shared P canon fs0 t0 h (js ++ [⟨root, seen, B, Solver.init B.g B.n, B.cache1⟩]) fs t
  | step {h js fs t s'} (k : Nat) (j : Job P canon) (e : Ev α) : Shared P canon fs0 t0 h js fs t → js[k]? = some j →
      Make.step P j.B.need j.B.objs j.B.g ⟨j.sol, fs, t, j.info⟩ e = some s' →
      Shared P canon fs0 t0 (h ++ [(k, e, fs)]) (js.set k { j with sol := s'.sol, info := s'.cache }) s'.fs s'.clock

/-! ### specification -/

/-- Build commands write their target in one piece: whatever one of them writes is what it makes of its inputs, where it has read each of
them at some moment since it was started. -/
def Whole (h : Hist α) (js : List (Job P canon)) : Prop :=
  ∀ h1 k i v fs h2, h = h1 ++ (k, .write i v, fs) :: h2 → ∀ (j : Job P canon) o, js[k]? = some j → j.B.objs[i]? = some o →
    ∃ f, v = P.cmd o f ∧ ∀ o', InputOf P canon o o' → ∃ a b x, h1 ++ [(k, .write i v, fs)] = a ++ x :: b ∧
      (∃ w fs1, (k, Ev.sched (.start w i), fs1) ∈ a) ∧ f (P.path o') = contents x.2.2 (P.path o')

/-- Build commands that reported success have written their target. -/
def Wrote (h : Hist α) (js : List (Job P canon)) : Prop :=
  ∀ h1 k w i fs h2, h = h1 ++ (k, .sched (.finish w i .ok), fs) :: h2 → ∀ (j : Job P canon) o, js[k]? = some j →
    j.B.objs[i]? = some o → P.kind o = .file → work P.reg j.B.need o = .calls → ∃ v fs1, (k, Ev.write i v, fs1) ∈ h1

/-! ### proofs -/

/-- the events of process `k` -/
def own (h : Hist α) (k : Nat) : List (Ev α) := h.filterMap fun x => if x.1 = k then some x.2.1 else none

theorem own_append (a b : Hist α) (k : Nat) : own (a ++ b) k = own a k ++ own b k := by simp [own]

theorem mem_own {h : Hist α} {k : Nat} {e : Ev α} : e ∈ own h k ↔ ∃ fs, (k, e, fs) ∈ h := by
  simp only [own, List.mem_filterMap]
  constructor
  · rintro ⟨⟨k', e', fs⟩, hm, he⟩
    simp only at he
    split at he
    · rename_i hk; cases hk; cases he; exact ⟨fs, hm⟩
    · cases he
  · rintro ⟨fs, hm⟩
    exact ⟨_, hm, by simp⟩

theorem mem_own_sched {h : Hist α} {k : Nat} {e : Solver.Ev} : e ∈ sched (own h k) ↔ ∃ fs, (k, Ev.sched e, fs) ∈ h := by
  rw [mem_sched, mem_own]

theorem own_same (h : Hist α) (k : Nat) (e : Ev α) (fs : FS α) : own (h ++ [(k, e, fs)]) k = own h k ++ [e] := by
  rw [own_append]; simp [own]

theorem own_other (h : Hist α) {k m : Nat} (e : Ev α) (fs : FS α) (hne : k ≠ m) : own (h ++ [(k, e, fs)]) m = own h m := by
  rw [own_append]; simp [own, hne]

/-- the file target `o` and the file targets it is made of have the contents their commands make of the present files -/
def Settled (P : Proj α) (canon : String → String) (fs : FS α) (o : Nat) : Prop :=
  ∀ x, ReflTransGen (InputOf P canon) o x → P.kind x = .file → contents fs (P.path x) = some (P.cmd x (contents fs))

theorem Settled.mono {fs : FS α} {o x : Nat} (h : Settled P canon fs o) (hx : ReflTransGen (InputOf P canon) o x) : Settled P canon fs x :=
  fun y hy hk => h y (ReflTransGen.trans hx hy) hk

theorem chain_closure {o x : Nat} (h : ReflTransGen (InputOf P canon) o x) : Closure canon P.reg o x := by
  induction h with
  | refl => exact .refl
  | tail _ hi ih => exact ReflTransGen.trans ih hi.closure

theorem chain_trans {o x : Nat} (h : TransGen (InputOf P canon) o x) : TransGen (ObjDep canon P.reg) o x := by
  induction h with
  | single hi => exact hi.trans
  | tail _ hi ih => exact TransGen.trans ih hi.trans

section Exec
variable {root : Nat} {fs0 : FS α} {cache0 : FileCache} {B : Invocation P canon root fs0 cache0} {es : List Solver.Ev} {sol : Solver.St}

theorem Invocation.invE (hS : Sound P canon) (hroot : Registered P.reg root) (h : Solver.Exec B.g B.n es sol) :
    ∃ dep, Solver.PInv B.g dep B.n es sol ∧ ∀ i j, j ∈ dep i ↔ Solver.DependsOn B.ds i j := by
  obtain ⟨_, order, lim, ho, hg⟩ := B.prep hS hroot
  obtain ⟨_, _, _, _, dep, hwf, hdep⟩ := Solver.accepted ho hg
  exact ⟨dep, Solver.inv_of_exec hwf h, hdep⟩

theorem deps_finishedE (hS : Sound P canon) (hroot : Registered P.reg root) (h : Solver.Exec B.g B.n es sol)
    {i o o' : Nat} (hst : i ∈ Solver.starts es) (hi : B.objs[i]? = some o)
    (ht : TransGen (ObjDep canon P.reg) o o') : ∃ j w, B.objs[j]? = some o' ∧ Solver.Ev.finish w j .ok ∈ es := by
  obtain ⟨dep, I, hdep⟩ := B.invE hS hroot h
  have Pr := (B.prep hS hroot).1
  obtain ⟨j, hj, htd⟩ := (Pr.trans hS.consistent hroot hi).2 o' ht
  have : ∀ k, TransGen (Solver.DependsOn B.ds) i k → ∃ w, Solver.Ev.finish w k .ok ∈ es := by
    intro k hk
    induction hk with
    | single hd => exact I.depsOk i hst _ ((hdep _ _).2 hd)
    | @tail y z _ hyz ih =>
      obtain ⟨w, hw⟩ := ih
      exact I.depsOk y (I.endsStarted y (Solver.mem_ends.2 ⟨w, _, hw⟩)) z ((hdep _ _).2 hyz)
  obtain ⟨w, hw⟩ := this j htd
  exact ⟨j, w, hj, hw⟩

theorem running_startedE (hS : Sound P canon) (hroot : Registered P.reg root) (h : Solver.Exec B.g B.n es sol)
    {j : Nat} (hm : Solver.WS.run j ∈ sol.ws) : j ∈ Solver.starts es ∧ j ∉ Solver.ends es := by
  obtain ⟨dep, I, _⟩ := B.invE hS hroot h
  obtain ⟨w', hw'⟩ := List.getElem?_of_mem hm
  exact I.runs w' j hw'

theorem finishedE (hS : Sound P canon) (hroot : Registered P.reg root) (h : Solver.Exec B.g B.n es sol)
    (hr : sol.returned) (hv : sol.verdict = true) {o : Nat} (ho : Closure canon P.reg root o) :
    ∃ i w : Nat, B.objs[i]? = some o ∧ Solver.Ev.finish w i .ok ∈ es := by
  obtain ⟨i, hi⟩ := B.index hS hroot ho
  obtain ⟨Pr, order, lim, hor, hg⟩ := B.prep hS hroot
  obtain ⟨hall, _⟩ := Solver.C03_true_means_all_done hor hg h hr hv
  obtain ⟨_, w, h2⟩ := hall i (by rw [Pr.len]; exact (List.getElem?_eq_some_iff.1 hi).1)
  exact ⟨i, w, hi, h2⟩

end Exec

/-- looking up a process after one of them has done something -/
theorem set_job {js : List (Job P canon)} {k : Nat} {j : Job P canon} (hj : js[k]? = some j) {sol : Solver.St} {info : FileCache}
    {m : Nat} {jm : Job P canon} (h : (js.set k { j with sol := sol, info := info })[m]? = some jm) :
    (m = k ∧ jm = { j with sol := sol, info := info }) ∨ (m ≠ k ∧ js[m]? = some jm) := by
  by_cases hm : m = k
  · subst hm
    rw [List.getElem?_set_self (List.getElem?_eq_some_iff.1 hj).1] at h
    cases h
    exact Or.inl ⟨rfl, rfl⟩
  · rw [List.getElem?_set_ne (Ne.symm hm)] at h
    exact Or.inr ⟨hm, h⟩

/-- what is fixed when a process begins -/
theorem set_static {js : List (Job P canon)} {k : Nat} {j : Job P canon} (hj : js[k]? = some j) {sol : Solver.St} {info : FileCache}
    {m : Nat} {jm : Job P canon} (h : (js.set k { j with sol := sol, info := info })[m]? = some jm) :
    ∃ j0, js[m]? = some j0 ∧ jm = { j0 with sol := jm.sol, info := jm.info } := by
  rcases set_job hj h with ⟨rfl, rfl⟩ | ⟨_, h⟩
  · exact ⟨j, hj, rfl⟩
  · exact ⟨jm, h, rfl⟩

theorem set_keeps {js : List (Job P canon)} {k : Nat} {j : Job P canon} (hj : js[k]? = some j) (sol : Solver.St) (info : FileCache)
    {m : Nat} {jm : Job P canon} (h : js[m]? = some jm) :
    ∃ sol' info', (js.set k { j with sol := sol, info := info })[m]? = some { jm with sol := sol', info := info' } := by
  by_cases hm : m = k
  · subst hm
    rw [hj] at h; cases h
    exact ⟨sol, info, List.getElem?_set_self (List.getElem?_eq_some_iff.1 hj).1⟩
  · exact ⟨jm.sol, jm.info, by rw [List.getElem?_set_ne (Ne.symm hm)]; exact h⟩

theorem Whole.back {h : Hist α} {js : List (Job P canon)} {k : Nat} {j : Job P canon} (hj : js[k]? = some j) {sol : Solver.St}
    {info : FileCache} {x : Nat × Ev α × FS α}
    (hw : Whole (h ++ [x]) (js.set k { j with sol := sol, info := info })) : Whole h js := by
  intro h1 m i v fs h2 he jm o hjm hi
  obtain ⟨sol', info', hk⟩ := set_keeps hj sol info hjm
  exact hw h1 m i v fs (h2 ++ [x]) (by rw [he]; simp) _ o hk hi

theorem Wrote.back {h : Hist α} {js : List (Job P canon)} {k : Nat} {j : Job P canon} (hj : js[k]? = some j) {sol : Solver.St}
    {info : FileCache} {x : Nat × Ev α × FS α}
    (hw : Wrote (h ++ [x]) (js.set k { j with sol := sol, info := info })) : Wrote h js := by
  intro h1 m w i fs h2 he jm o hjm hi
  obtain ⟨sol', info', hk⟩ := set_keeps hj sol info hjm
  have := hw h1 m w i fs (h2 ++ [x]) (by rw [he]; simp) _ o hk hi
  exact this

theorem append_keeps {js : List (Job P canon)} {m : Nat} {jm : Job P canon} (h : js[m]? = some jm) (l : List (Job P canon)) :
    (js ++ l)[m]? = some jm := by
  rw [List.getElem?_append_left (List.getElem?_eq_some_iff.1 h).1]; exact h

/-- every process executes its solver -/
structure Going (h : Hist α) (js : List (Job P canon)) : Prop where
  known : ∀ x ∈ h, x.1 < js.length
  exec : ∀ k j, js[k]? = some j → Registered P.reg j.root ∧ P.kind j.root ≠ .other ∧ Solver.Exec j.B.g j.B.n (sched (own h k)) j.sol

theorem Shared.going {fs0 fs : FS α} {t0 t : Nat} {h : Hist α} {js : List (Job P canon)} (hx : Shared P canon fs0 t0 h js fs t) :
    Going h js := by
  induction hx with
  | start => exact ⟨by simp, by simp⟩
  | @launch h js fs t root V B _ hroot hk _ ih =>
    refine ⟨fun x hx => by have := ih.known x hx; simp; omega, ?_⟩
    intro k j hj
    by_cases hlt : k < js.length
    · rw [List.getElem?_append_left hlt] at hj
      exact ih.exec k j hj
    · rw [List.getElem?_append_right (by omega)] at hj
      obtain ⟨h1, h2⟩ := List.getElem?_eq_some_iff.1 hj
      simp only [List.getElem_singleton] at h2
      subst h2
      have hown : own h k = [] := by
        rw [List.eq_nil_iff_forall_not_mem]
        intro e he
        obtain ⟨fs1, hm⟩ := mem_own.1 he
        exact hlt (ih.known _ hm)
      rw [hown]
      exact ⟨hroot, hk, .init⟩
  | @step h js fs t s' k j e _ hj hst ih =>
    have hk := (List.getElem?_eq_some_iff.1 hj).1
    refine ⟨?_, ?_⟩
    · intro x hx
      rw [List.length_set]
      rcases List.mem_append.1 hx with hx | hx
      · exact ih.known x hx
      · rw [List.mem_singleton] at hx; subst hx; exact hk
    · intro m jm hm
      rcases set_job hj hm with ⟨rfl, rfl⟩ | ⟨hne, hm⟩
      · obtain ⟨h1, h2, h3⟩ := ih.exec _ j hj
        refine ⟨h1, h2, ?_⟩
        rw [own_same, sched_append]
        rcases step_sol hst with ⟨x, rfl, hxs⟩ | ⟨hne, hxs⟩
        · exact .snoc h3 hxs
        · have : sched [e] = [] := by
            cases e with
            | sched x => exact absurd rfl (hne x)
            | tick => rfl
            | write i v => rfl
          rw [this, List.append_nil]
          simpa [hxs] using h3
      · rw [own_other _ _ _ (Ne.symm hne)]
        exact ih.exec m jm hm

/-- the invariant -/
structure Sane (fs0 : FS α) (t0 : Nat) (h : Hist α) (js : List (Job P canon)) (fs : FS α) (t : Nat) : Prop where
  consist : Consist P canon fs
  clock : t0 ≤ t
  old : ∀ o e, Registered P.reg o → P.kind o = .file → fs (P.path o) = some e → e.mtime ≤ t
  src : ∀ o, Registered P.reg o → P.kind o = .source → fs (P.path o) = fs0 (P.path o)
  young : ∀ o e, Registered P.reg o → P.kind o = .file → fs (P.path o) = some e → t0 ≤ e.mtime → Settled P canon fs o
  orig : ∀ o e, Registered P.reg o → P.kind o = .file → fs (P.path o) = some e → fs0 (P.path o) = some e ∨ t0 ≤ e.mtime
  init : ∀ o, Registered P.reg o → Settled P canon fs0 o → Settled P canon fs o
  past : ∀ x ∈ h, ∀ o, Registered P.reg o → (P.kind o = .source → x.2.2 (P.path o) = fs0 (P.path o)) ∧
    (P.kind o = .file → ∀ e, x.2.2 (P.path o) = some e → fs0 (P.path o) = some e ∨ t0 ≤ e.mtime ∧ Settled P canon fs o)
  upto : ∀ (k : Nat) (j : Job P canon), js[k]? = some j → ∀ o, Closure canon P.reg j.root o →
    ¬ NeedsWork P canon (fileinfo j.fs) o → Settled P canon fs o
  wrote : ∀ (k : Nat) (j : Job P canon) i v fs1 o, js[k]? = some j → (k, Ev.write i v, fs1) ∈ h → j.B.objs[i]? = some o →
    Settled P canon fs o
  read : ∀ (k : Nat) (j : Job P canon) i o o' w fs1 a b, js[k]? = some j → h = a ++ b → (k, Ev.sched (.start w i), fs1) ∈ a →
    j.B.objs[i]? = some o → InputOf P canon o o' → ∀ x ∈ b, contents x.2.2 (P.path o') = contents fs (P.path o')

/-- what a process has finished is settled -/
theorem Sane.done (hS : Sound P canon) {fs0 fs : FS α} {t0 t : Nat} {h : Hist α} {js : List (Job P canon)} (I : Sane fs0 t0 h js fs t)
    (G : Going h js) (hw : Wrote h js) {k : Nat} {j : Job P canon} (hj : js[k]? = some j) {w i : Nat} {fs1 : FS α}
    (hf : (k, Ev.sched (.finish w i .ok), fs1) ∈ h) {o : Nat} (hi : j.B.objs[i]? = some o) (hk : P.kind o = .file) :
    Settled P canon fs o := by
  obtain ⟨hroot, hkr, _⟩ := G.exec k j hj
  have hcl := j.B.closure hS hroot hi
  by_cases hn : NeedsWork P canon (view j.fs []) o
  · obtain ⟨h1, h2, he⟩ := List.append_of_mem hf
    obtain ⟨v, fs2, hv⟩ := hw h1 k w i fs1 h2 he j o hj hi hk ((need_closure hS hroot hkr j.B hcl).1.2 hn)
    exact I.wrote k j i v fs2 o hj (by rw [he]; exact List.mem_append_left _ hv) hi
  · exact I.upto k j hj o hcl hn

/-- when a process has started a command, what it depends on is settled -/
theorem Sane.inputs (hS : Sound P canon) {fs0 fs : FS α} {t0 t : Nat} {h : Hist α} {js : List (Job P canon)} (I : Sane fs0 t0 h js fs t)
    (G : Going h js) (hw : Wrote h js) {k : Nat} {j : Job P canon} (hj : js[k]? = some j) {i o x : Nat}
    (hst : i ∈ Solver.starts (sched (own h k))) (hi : j.B.objs[i]? = some o) (ht : TransGen (ObjDep canon P.reg) o x)
    (hk : P.kind x = .file) : Settled P canon fs x := by
  obtain ⟨hroot, _, hex⟩ := G.exec k j hj
  obtain ⟨m, w, hm, hf⟩ := deps_finishedE hS hroot hex hst hi ht
  obtain ⟨fs1, hf⟩ := mem_own_sched.1 hf
  exact I.done hS G hw hj hf hm hk

/-- what an event does to the files and sources: nothing, or it writes one of them -/
theorem step_files (hS : Sound P canon) {root : Nat} {fs1 : FS α} {cache1 : FileCache} {B : Invocation P canon root fs1 cache1}
    (hroot : Registered P.reg root) {s s' : St α} {e : Ev α} (h : step P B.need B.objs B.g s e = some s') :
    ((∀ o, Registered P.reg o → P.kind o = .file ∨ P.kind o = .source → s'.fs (P.path o) = s.fs (P.path o)) ∧
      ∀ i v, e ≠ .write i v) ∨
    ∃ i v o, e = .write i v ∧ B.objs[i]? = some o ∧ Solver.WS.run i ∈ s.sol.ws ∧ P.kind o = .file ∧
      s'.fs = setFile s.fs (P.path o) ⟨s.clock, some v⟩ := by
  cases fsStep h with
  | same hfs hne => exact Or.inl ⟨fun o _ _ => by rw [hfs], hne⟩
  | write hi hrun hk _ hfs => exact Or.inr ⟨_, _, _, rfl, hi, hrun, hk, hfs⟩
  | @mkdir w i x hx hkx hnone _ hfs =>
    refine Or.inl ⟨fun o ho hk => ?_, by simp⟩
    have hn := not_made hS (B.reg hS hroot hx) hkx ho hk
    rw [hfs]
    cases hsp : s.fs (P.path o) with
    | some e => exact makedirs_some hsp
    | none => simp [makedirs, hsp, hn]

/-- settled contents depend on the contents of files and sources only -/
theorem Settled.congr (hF : Functional P canon) {fs fs' : FS α} {o : Nat} (ho : Registered P.reg o) (h : Settled P canon fs o)
    (he : ∀ x, ReflTransGen (InputOf P canon) o x → P.kind x = .file ∨ P.kind x = .source →
      contents fs' (P.path x) = contents fs (P.path x)) : Settled P canon fs' o := by
  have := ho
  intro x hx hk
  rw [he x hx (Or.inl hk), h x hx hk, hF x (contents fs') (contents fs)]
  intro x' hin
  exact he x' (ReflTransGen.tail hx hin) hin.kind

/-- A write of the right contents changes the contents of no settled file, and what is written is settled. -/
theorem settled_write (hS : Sound P canon) (hF : Functional P canon) {fs : FS α} {o : Nat} (ho : Registered P.reg o) {t : Nat} {v : α}
    (hk : P.kind o = .file) (hv : v = P.cmd o (contents fs)) (hin : ∀ x, TransGen (ObjDep canon P.reg) o x → P.kind x = .file → Settled P canon fs x) :
    (∀ p, Registered P.reg p → Settled P canon fs p →
      (∀ x, ReflTransGen (InputOf P canon) p x → P.kind x = .file ∨ P.kind x = .source →
        contents (setFile fs (P.path o) ⟨t, some v⟩) (P.path x) = contents fs (P.path x)) ∧
      Settled P canon (setFile fs (P.path o) ⟨t, some v⟩) p) ∧
    Settled P canon (setFile fs (P.path o) ⟨t, some v⟩) o := by
  have hne : ∀ x, Registered P.reg x → x ≠ o →
      contents (setFile fs (P.path o) ⟨t, some v⟩) (P.path x) = contents fs (P.path x) := by
    intro x hx hne
    have : P.path x ≠ P.path o := fun h => hne (path_inj hS hx ho h)
    simp [contents, setFile, this]
  have h1 : ∀ p, Registered P.reg p → Settled P canon fs p →
      (∀ x, ReflTransGen (InputOf P canon) p x → P.kind x = .file ∨ P.kind x = .source →
        contents (setFile fs (P.path o) ⟨t, some v⟩) (P.path x) = contents fs (P.path x)) := by
    intro p hp hs x hx hkx
    by_cases hxo : x = o
    · subst hxo
      rw [hs x hx hk, ← hv]
      simp [contents, setFile]
    · exact hne x (closure_registered hp (chain_closure hx)) hxo
  refine ⟨fun p hp hs => ⟨h1 p hp hs, hs.congr hF hp (h1 p hp hs)⟩, ?_⟩
  intro x hx hkx
  rcases reflTransGen_iff_eq_or_transGen.1 hx with rfl | ht
  · have : contents (setFile fs (P.path x) ⟨t, some v⟩) (P.path x) = some v := by simp [contents, setFile]
    rw [this, hv, hF x (contents (setFile fs (P.path x) ⟨t, some (P.cmd x (contents fs))⟩)) (contents fs)]
    intro x' hio
    have := hne x' hio.registered (by rintro rfl; exact inputOf_irrefl hS hio)
    rw [hv] at this
    exact this
  · have hreg := closure_registered ho (chain_closure hx)
    have hset := hin x (chain_trans ht) hkx
    exact hset.congr hF hreg (h1 x hreg hset) x .refl hkx

theorem Shared.sane (hS : Sound P canon) (hF : Functional P canon) {fs0 : FS α} {t : Nat} (hH : Stamped P canon fs0 t)
    {fs : FS α} {t' : Nat} {h : Hist α} {js : List (Job P canon)}
    (hx : Shared P canon fs0 (t + 1) h js fs t') (hwh : Whole h js) (hwr : Wrote h js) : Sane fs0 (t + 1) h js fs t' := by
  induction hx with
  | start =>
    refine ⟨hH.consist hS hF, le_refl _, fun o e ho hk he => le_trans (hH.old o e ho hk he) (Nat.le_succ _), fun _ _ _ => rfl, ?_, fun _ _ _ _ he => Or.inl he, fun _ _ h => h, by simp, by simp, by simp, by simp⟩
    intro o e ho hk he hle
    have := hH.old o e ho hk he
    omega
  | @launch h js fs t' root V B hx hroot hkr hV ih =>
    have I := ih
      (fun h1 k i v fs h2 he j o hj hi => hwh h1 k i v fs h2 he j o (append_keeps hj _) hi)
      (fun h1 k w i fs h2 he j o hj hi => hwr h1 k w i fs h2 he j o (append_keeps hj _) hi)
    have G := hx.going
    have split : ∀ (k : Nat) (j : Job P canon), (js ++ [⟨root, V, B, Solver.init B.g B.n, B.cache1⟩])[k]? = some j → js[k]? = some j ∨
        (k = js.length ∧ j = ⟨root, V, B, Solver.init B.g B.n, B.cache1⟩) := by
      intro k j hj
      by_cases hlt : k < js.length
      · rw [List.getElem?_append_left hlt] at hj; exact Or.inl hj
      · rw [List.getElem?_append_right (by omega)] at hj
        obtain ⟨h1, h2⟩ := List.getElem?_eq_some_iff.1 hj
        simp only [List.length_singleton] at h1
        simp only [List.getElem_singleton] at h2
        exact Or.inr ⟨by omega, h2.symm⟩
    have new : ∀ e fs1, (js.length, e, fs1) ∉ h := fun e fs1 hm => lt_irrefl _ (G.known _ hm)
    -- what was seen of a target
    have seen : ∀ o, Registered P.reg o → (P.kind o = .source → V (P.path o) = fs0 (P.path o)) ∧
        (P.kind o = .file → ∀ e, V (P.path o) = some e → fs0 (P.path o) = some e ∨ t + 1 ≤ e.mtime ∧ Settled P canon fs o) := by
      intro o ho
      obtain ⟨f, hf, hVf⟩ := hV (P.path o)
      rw [hVf]
      rcases List.mem_cons.1 hf with rfl | hf
      · refine ⟨I.src o ho, fun hk e he => ?_⟩
        rcases I.orig o e ho hk he with h | h
        · exact Or.inl h
        · exact Or.inr ⟨h, I.young o e ho hk he h⟩
      · obtain ⟨x, hx, rfl⟩ := List.mem_map.1 hf
        exact I.past x hx o ho
    refine ⟨I.consist, I.clock, I.old, I.src, I.young, I.orig, I.init, I.past, ?_, ?_, ?_⟩
    · intro k j hj o ho hnw
      rcases split k j hj with hj | ⟨rfl, rfl⟩
      · exact I.upto k j hj o ho hnw
      · simp only at ho hnw
        have hood : ∀ y, Closure canon P.reg o y → P.kind y = .file ∨ P.kind y = .source →
            (fileinfo V (P.path y)).exist = true ∧ ∀ o', InputOf P canon y o' →
              (fileinfo V (P.path o')).mtime ≤ (fileinfo V (P.path y)).mtime := by
          intro y hoy hky
          have h : ¬ OutOfDate P canon (fileinfo V) y := fun h => hnw ⟨y, hoy, h⟩
          unfold OutOfDate at h
          rcases hky with hky | hky <;> rw [hky] at h <;>
          · simp only [not_or, not_exists, not_and, Bool.not_eq_true, Bool.not_eq_false, gt_iff_lt, not_lt] at h
            exact h.2
        have hreg : ∀ y, Closure canon P.reg o y → Registered P.reg y := fun y hy =>
          closure_registered hroot (ReflTransGen.trans ho hy)
        have hget : ∀ y, Closure canon P.reg o y → P.kind y = .file ∨ P.kind y = .source → ∃ e, V (P.path y) = some e := by
          intro y hy hky
          have := (hood y hy hky).1
          rw [fileinfo_exist] at this
          exact Option.isSome_iff_exists.1 this
        intro x hox hkx
        have hcx := chain_closure hox
        obtain ⟨e, he⟩ := hget x hcx (Or.inl hkx)
        rcases (seen x (hreg x hcx)).2 hkx e he with h0 | ⟨_, hs⟩
        · -- it is as it was at first, and so is all it is made of
          have hle := hH.old x e (hreg x hcx) hkx h0
          have old : ∀ y, ReflTransGen (InputOf P canon) x y → (P.kind y = .file ∨ P.kind y = .source) ∧
              ∃ ey, V (P.path y) = some ey ∧ fs0 (P.path y) = some ey ∧ ey.mtime ≤ e.mtime := by
            intro y hy
            induction hy with
            | refl => exact ⟨Or.inl hkx, e, he, h0, le_refl _⟩
            | @tail y z hy hz ih =>
              obtain ⟨hky, ey, h1, h2, h3⟩ := ih
              have hcy := ReflTransGen.trans hcx (chain_closure hy)
              have hcz := ReflTransGen.trans hcy hz.closure
              obtain ⟨ez, h4⟩ := hget z hcz hz.kind
              have hm := (hood y hcy hky).2 z hz
              simp only [fileinfo, h1, h4] at hm
              refine ⟨hz.kind, ez, h4, ?_, le_trans hm h3⟩
              rcases hz.kind with hkz | hkz
              · rcases (seen z (hreg z hcz)).2 hkz ez h4 with h5 | ⟨h5, _⟩
                · exact h5
                · omega
              · rw [← (seen z (hreg z hcz)).1 hkz]; exact h4
          have hs0 : Settled P canon fs0 x := by
            intro y hy hky
            obtain ⟨_, ey, h1, h2, _⟩ := old y hy
            have hcy := ReflTransGen.trans hcx (chain_closure hy)
            refine hH.consist hS hF y ey (hreg y hcy) hky h2 ?_
            intro o' hio
            obtain ⟨_, e', h3, h4, _⟩ := old o' (hy.tail hio)
            have := (hood y hcy (Or.inl hky)).2 o' hio
            simp only [fileinfo, h1, h3] at this
            exact ⟨e', h4, this⟩
          exact I.init x (hreg x hcx) hs0 x .refl hkx
        · exact hs x .refl hkx
    · intro k j i v fs1 o hj hm hi
      rcases split k j hj with hj | ⟨rfl, rfl⟩
      · exact I.wrote k j i v fs1 o hj hm hi
      · exact absurd hm (new _ _)
    · intro k j i o o' w fs1 a b hj he hm hi hin
      rcases split k j hj with hj | ⟨rfl, rfl⟩
      · exact I.read k j i o o' w fs1 a b hj he hm hi hin
      · exact absurd (by rw [he]; exact List.mem_append_left _ hm) (new (.sched (.start w i)) fs1)
  | @step h js fs t' s' k j e hx hj hst ih =>
    have hwr' := hwr.back hj
    have I := ih (hwh.back hj) hwr'
    have G := hx.going
    obtain ⟨hroot, hkr, hex⟩ := G.exec k j hj
    have hclk : t' ≤ s'.clock := step_clock hst
    -- the main fact: a write writes the right contents
    have key : ((∀ o, Registered P.reg o → P.kind o = .file ∨ P.kind o = .source → s'.fs (P.path o) = fs (P.path o)) ∧
          ∀ i v, e ≠ .write i v) ∨
        ∃ i v o, e = .write i v ∧ j.B.objs[i]? = some o ∧ Registered P.reg o ∧ P.kind o = .file ∧ s'.fs = setFile fs (P.path o) ⟨t', some v⟩ ∧
          v = P.cmd o (contents fs) ∧ ∀ x, TransGen (ObjDep canon P.reg) o x → P.kind x = .file → Settled P canon fs x := by
      rcases step_files hS hroot hst with hsame | ⟨i, v, o, rfl, hi, hrun, hk, hfs⟩
      · exact Or.inl hsame
      · obtain ⟨hstart, _⟩ := running_startedE hS hroot hex hrun
        refine Or.inr ⟨i, v, o, rfl, hi, j.B.reg hS hroot hi, hk, hfs, ?_, fun x ht hkx => I.inputs hS G hwr' hj hstart hi ht hkx⟩
        obtain ⟨sol', info', hk'⟩ := set_keeps hj s'.sol s'.cache hj
        obtain ⟨f, hv, hf⟩ := hwh h k i v fs [] (by simp) _ o hk' hi
        rw [hv]
        refine hF o _ _ fun o' hin => ?_
        obtain ⟨a, b, x, hab, ⟨w, fs1, hs⟩, hfx⟩ := hf o' hin
        rw [hfx]
        rcases List.eq_nil_or_concat b with rfl | ⟨q, y, rfl⟩
        · obtain ⟨_, h2⟩ := List.append_inj' hab rfl
          cases h2; rfl
        · rw [List.concat_eq_append, ← List.cons_append, ← List.append_assoc] at hab
          obtain ⟨h1, _⟩ := List.append_inj' hab rfl
          exact I.read k j i o o' w fs1 a (x :: q) hj h1 hs hi hin x (by simp)
    -- what is settled stays as it is
    have stay : ∀ p, Registered P.reg p → Settled P canon fs p →
        (∀ x, ReflTransGen (InputOf P canon) p x → P.kind x = .file ∨ P.kind x = .source →
          contents s'.fs (P.path x) = contents fs (P.path x)) ∧ Settled P canon s'.fs p := by
      intro p hp hs
      rcases key with ⟨hsame, hnw⟩ | ⟨i, v, o, rfl, hi, ho, hk, hfs, hv, hin⟩
      · have : ∀ x, ReflTransGen (InputOf P canon) p x → P.kind x = .file ∨ P.kind x = .source →
            contents s'.fs (P.path x) = contents fs (P.path x) := by
          intro x hx hkx
          unfold contents
          rw [hsame x (closure_registered hp (chain_closure hx)) hkx]
        exact ⟨this, hs.congr hF hp this⟩
      · rw [hfs]
        exact (settled_write hS hF ho hk hv hin).1 p hp hs
    have srcs : ∀ o, Registered P.reg o → P.kind o = .source → s'.fs (P.path o) = fs (P.path o) := by
      intro o ho hk
      rcases key with ⟨hsame, hnw⟩ | ⟨i, v, o1, rfl, hi, ho1, hk1, hfs, _⟩
      · exact hsame o ho (Or.inr hk)
      · have : P.path o ≠ P.path o1 := by
          intro h
          have := path_inj hS ho ho1 h
          subst this
          rw [hk] at hk1; cases hk1
        rw [hfs]; simp [setFile, this]
    refine ⟨?_, le_trans I.clock hclk, ?_, fun o ho hk => (srcs o ho hk).trans (I.src o ho hk), ?_, ?_,
      fun o ho hs => (stay o ho (I.init o ho hs)).2, ?_, ?_, ?_, ?_⟩
    · -- Consist
      intro p ep hp hkp hep hin
      rcases key with ⟨hsame, hnw⟩ | ⟨i, v, o, rfl, hi, ho, hk, hfs, hv, hdeps⟩
      · rw [hsame p hp (Or.inl hkp)] at hep
        have := I.consist p ep hp hkp hep (by
          intro o' hio
          obtain ⟨e', h1, h2⟩ := hin o' hio
          rw [hsame o' hio.registered hio.kind] at h1
          exact ⟨e', h1, h2⟩)
        rw [hF p (contents s'.fs) (contents fs) (by
          intro o' hio; unfold contents; rw [hsame o' hio.registered hio.kind])]
        rw [← this]
        unfold contents
        rw [hsame p hp (Or.inl hkp)]
      · by_cases hpo : p = o
        · subst hpo
          rw [hfs]
          exact (settled_write hS hF ho hk hv hdeps).2 p .refl hk
        · have hpp : P.path p ≠ P.path o := fun h => hpo (path_inj hS hp ho h)
          have hep' : fs (P.path p) = some ep := by rw [hfs] at hep; simpa [setFile, hpp] using hep
          by_cases hio : InputOf P canon p o
          · obtain ⟨e', h1, h2⟩ := hin o hio
            rw [hfs] at h1
            simp only [setFile, if_true, Option.some.injEq] at h1
            subst h1
            exact (stay p hp (I.young p ep hp hkp hep' (le_trans I.clock h2))).2 p .refl hkp
          · have hne : ∀ o', InputOf P canon p o' → s'.fs (P.path o') = fs (P.path o') := by
              intro o' h'
              have : P.path o' ≠ P.path o := by
                intro he
                have := path_inj hS h'.registered ho he
                subst this
                exact hio h'
              rw [hfs]; simp [setFile, this]
            have := I.consist p ep hp hkp hep' (by
              intro o' h'
              obtain ⟨e', h1, h2⟩ := hin o' h'
              rw [hne o' h'] at h1
              exact ⟨e', h1, h2⟩)
            rw [hF p (contents s'.fs) (contents fs) (by
              intro o' h'; unfold contents; rw [hne o' h'])]
            rw [← this]
            unfold contents
            rw [hfs]; simp [setFile, hpp]
    · intro o eo ho hk heo
      rcases key with ⟨hsame, hnw⟩ | ⟨i, v, o1, rfl, hi, ho1, hk1, hfs, _⟩
      · rw [hsame o ho (Or.inl hk)] at heo
        exact le_trans (I.old o eo ho hk heo) hclk
      · rw [hfs] at heo
        simp only [setFile] at heo
        split at heo
        · cases heo; exact hclk
        · exact le_trans (I.old o eo ho hk heo) hclk
    · intro o eo ho hk heo hle
      rcases key with ⟨hsame, hnw⟩ | ⟨i, v, o1, he, hi, ho1, hk1, hfs, hv, hdeps⟩
      · rw [hsame o ho (Or.inl hk)] at heo
        exact (stay o ho (I.young o eo ho hk heo hle)).2
      · by_cases hpo : o = o1
        · subst hpo
          rw [hfs]
          exact (settled_write hS hF ho hk hv hdeps).2
        · have hpp : P.path o ≠ P.path o1 := fun h => hpo (path_inj hS ho ho1 h)
          rw [hfs] at heo
          simp only [setFile, hpp, if_false] at heo
          exact (stay o ho (I.young o eo ho hk heo hle)).2
    · intro o eo ho hk heo
      rcases key with ⟨hsame, hnw⟩ | ⟨i, v, o1, he, hi, ho1, hk1, hfs, hv, hdeps⟩
      · rw [hsame o ho (Or.inl hk)] at heo
        exact I.orig o eo ho hk heo
      · rw [hfs] at heo
        simp only [setFile] at heo
        split at heo
        · cases heo; exact Or.inr I.clock
        · exact I.orig o eo ho hk heo
    · intro x hx o ho
      rcases List.mem_append.1 hx with hx | hx
      · refine ⟨(I.past x hx o ho).1, fun hk e1 he1 => ?_⟩
        rcases (I.past x hx o ho).2 hk e1 he1 with h1 | ⟨h1, h2⟩
        · exact Or.inl h1
        · exact Or.inr ⟨h1, (stay o ho h2).2⟩
      · rw [List.mem_singleton] at hx; subst hx
        refine ⟨I.src o ho, fun hk e1 he1 => ?_⟩
        rcases I.orig o e1 ho hk he1 with h1 | h1
        · exact Or.inl h1
        · exact Or.inr ⟨h1, (stay o ho (I.young o e1 ho hk he1 h1)).2⟩
    · intro m jm hm o ho hnw
      obtain ⟨j0, h0, he⟩ := set_static hj hm
      rw [he] at ho hnw
      exact (stay o (closure_registered (G.exec m j0 h0).1 ho) (I.upto m j0 h0 o ho hnw)).2
    · intro m jm i v fs1 o hm hmem hi
      obtain ⟨j0, h0, he⟩ := set_static hj hm
      rw [he] at hi
      have hi : j0.B.objs[i]? = some o := hi
      rcases List.mem_append.1 hmem with hmem | hmem
      · exact (stay o (j0.B.reg hS (G.exec m j0 h0).1 hi) (I.wrote m j0 i v fs1 o h0 hmem hi)).2
      · rw [List.mem_singleton] at hmem
        cases hmem
        rw [hj] at h0; cases h0
        rcases key with ⟨_, hno⟩ | ⟨i1, v1, o1, he1, hi1, ho1, hk1, hfs, hv, hdeps⟩
        · exact absurd rfl (hno i v)
        · cases he1
          rw [hi] at hi1; cases hi1
          rw [hfs]
          exact (settled_write hS hF ho1 hk1 hv hdeps).2
    · intro m jm i o o' w fs1 a b hm hab hs hi hin
      obtain ⟨j0, h0, he⟩ := set_static hj hm
      rw [he] at hi
      have hi : j0.B.objs[i]? = some o := hi
      rcases List.eq_nil_or_concat b with rfl | ⟨q, y, rfl⟩
      · simp
      · rw [List.concat_eq_append, ← List.append_assoc] at hab
        obtain ⟨h1, h2⟩ := List.append_inj' hab rfl
        cases h2
        have hsh : (m, Ev.sched (.start w i), fs1) ∈ h := by rw [h1]; exact List.mem_append_left _ hs
        have hstart : i ∈ Solver.starts (sched (own h m)) := Solver.mem_starts.2 ⟨w, mem_own_sched.2 ⟨_, hsh⟩⟩
        have hnow : contents fs (P.path o') = contents s'.fs (P.path o') := by
          rcases hin.kind with hk' | hk'
          · exact ((stay o' hin.registered (I.inputs hS G hwr' h0 hstart hi hin.trans hk')).1 o' .refl (Or.inl hk')).symm
          · unfold contents; rw [srcs o' hin.registered hk']
        intro x hx
        rw [List.concat_eq_append] at hx
        rcases List.mem_append.1 hx with hx | hx
        · rw [← hnow]
          exact I.read m j0 i o o' w fs1 a q h0 h1 hs hi hin x hx
        · rw [List.mem_singleton] at hx; subst hx
          exact hnow

/-- **C136**, what holds: processes begin to build targets of a project at any times, and what they do alternates in any way (some may fail or be
killed); their commands write their targets in one piece.  Then, as soon as one of them has returned `True`, and from then on whatever the
others do, every file target that it was asked for has the contents that a successful build from scratch of the same sources gives.
Missing: commands that write bit by bit (`C136_violated_contents`), and that all of them succeed (`C136_violated`; see `C136_succeeds`). -/
theorem C136_partial (hS : Sound P canon) (hF : Functional P canon)
    {fs0 fs : FS α} {t t' : Nat} (hH : Stamped P canon fs0 t) {h : Hist α} {js : List (Job P canon)}
    (hx : Shared P canon fs0 (t + 1) h js fs t') (hwh : Whole h js) (hwr : Wrote h js)
    {k : Nat} {j : Job P canon} (hj : js[k]? = some j) (hs : j.Succeeded)
    {fs1 : FS α} {t1 : Nat} (h1 : Pristine P fs1)
    (hsrc : ∀ o, Closure canon P.reg j.root o → P.kind o = .source → contents fs1 (P.path o) = contents fs0 (P.path o))
    {B1 : Invocation P canon j.root fs1 []} {tr1 : List (Ev α)} {s1 : St α}
    (hx1 : B1.Run t1 tr1 s1) (hfa1 : Faithful B1 t1 tr1) (hp1 : Productive B1 tr1) (hs1 : s1.Succeeded)
    {o : Nat} (ho : Closure canon P.reg j.root o) (hko : P.kind o = .file) :
    contents fs (P.path o) = contents s1.fs (P.path o) ∧ contents fs (P.path o) = some (P.cmd o (contents fs)) := by
  have I := hx.sane hS hF hH hwh hwr
  have G := hx.going
  obtain ⟨hroot, hk, hex⟩ := G.exec k j hj
  have hc : ∀ o, Closure canon P.reg j.root o → P.kind o = .file → contents fs (P.path o) = some (P.cmd o (contents fs)) := by
    intro o ho hko
    obtain ⟨i, w, hi, hf⟩ := finishedE hS hroot hex hs.1 hs.2 ho
    obtain ⟨fs2, hf⟩ := mem_own_sched.1 hf
    exact I.done hS G hwr hj hf hi hko o .refl hko
  have hc1 := fun o ho hko => consist_built hS hF ((Stamped.checkout (canon := canon) (t := 0) h1).consist hS hF) hroot hk (accurate_nil _ _) hx1
    hfa1 hp1 hs1 (o := o) ho hko
  refine ⟨contents_unique hS hF hc hc1 ?_ hroot o ho hko, hc o ho hko⟩
  intro o' ho' hk'
  have hr' := closure_registered hroot ho'
  have := hsrc o' ho' hk'
  unfold contents at this ⊢
  rw [I.src o' hr' hk', source_unchanged hS hroot hx1 hr' hk', this]

/-! ### directories -/

theorem Shared.keep {fs0 fs : FS α} {t0 t : Nat} {h : Hist α} {js : List (Job P canon)} (hx : Shared P canon fs0 t0 h js fs t)
    {a b : Hist α} (he : h = a ++ b) {y : Nat × Ev α × FS α} (hy : y ∈ a) {p : String} (hp : (y.2.2 p).isSome) :
    (fs p).isSome ∧ ∀ x ∈ b, (x.2.2 p).isSome := by
  induction hx generalizing a b with
  | start => simp at he; rw [he.1] at hy; cases hy
  | launch _ _ _ _ _ _ _ ih => exact ih he hy
  | @step h js fs t s' k j e hx hj hst ih =>
    rcases List.eq_nil_or_concat b with rfl | ⟨q, z, rfl⟩
    · rw [List.append_nil] at he
      subst he
      refine ⟨?_, by simp⟩
      rcases List.mem_append.1 hy with hy | hy
      · exact step_keep hst (ih (a := h) (b := []) (by simp) hy).1
      · rw [List.mem_singleton] at hy; subst hy
        exact step_keep hst hp
    · rw [List.concat_eq_append, ← List.append_assoc] at he
      obtain ⟨h1, h2⟩ := List.append_inj' he rfl
      cases h2
      obtain ⟨h3, h4⟩ := ih h1 hy
      refine ⟨step_keep hst h3, ?_⟩
      intro x hx
      rw [List.concat_eq_append] at hx
      rcases List.mem_append.1 hx with hx | hx
      · exact h4 x hx
      · rw [List.mem_singleton] at hx; subst hx; exact h3

/-- the file cache changes at the path of a target when its work function ends -/
theorem step_info {need : Nat → Option Bool} {objs : List Nat} {g : Solver.Graph} {s s' : St α} {e : Ev α}
    (h : step P need objs g s e = some s') {p : String} {x : Info} (hp : s.cache.get p = some x)
    (hne : ∀ w i r o, e = .sched (.finish w i r) → objs[i]? = some o → P.path o ≠ p) : s'.cache.get p = some x := by
  cases e with
  | tick => cases h; exact hp
  | write i v =>
    simp only [step] at h
    split at h
    · split at h
      · cases h; exact hp
      · cases h
    · cases h
  | sched e =>
    simp only [step] at h
    split at h
    · cases h
    · split at h
      · rename_i w i r _
        split at h
        · rename_i o ho
          have hno := hne _ _ _ o rfl ho
          have hu : ∀ (fs : FS α) (c : FileCache), c.get p = some x → (updateInfo fs c (P.path o)).get p = some x := by
            intro fs c hc
            unfold updateInfo
            rw [Dict.get_set_ne _ _ (by simpa using hno)]; exact hc
          have hg : ((getInfo s.fs s.cache (P.path o)).2).get p = some x := by
            unfold getInfo
            split
            · exact hp
            · exact hu _ _ hp
          split at h
          · rename_i q hfe
            cases h
            simp only
            unfold finishEffect at hfe
            split at hfe
            · simp only at hfe
              split at hfe
              · split at hfe
                · cases hfe; exact hg
                · cases hfe
              · split at hfe
                · cases hfe
                  exact hu _ _ hg
                · cases hfe; exact hg
                · cases hfe
            · split at hfe
              · split at hfe
                · cases hfe; exact hp
                · cases hfe
              · split at hfe
                · cases hfe; exact hp
                · cases hfe
              · split at hfe
                · split at hfe
                  · cases hfe; exact hu _ _ hp
                  · cases hfe
                · split at hfe
                  · cases hfe; exact hp
                  · cases hfe
                · split at hfe
                  · cases hfe; exact hp
                  · cases hfe; exact hu _ _ hp
                · cases hfe; exact hp
          · cases h
        · cases h
      · cases h; exact hp

/-- how the work function of a directory that was missing at first can end -/
theorem step_dir {need : Nat → Option Bool} {objs : List Nat} {g : Solver.Graph} {s s' : St α} {w i d : Nat}
    (h : step P need objs g s (.sched (.finish w i .ok)) = some s') (hi : objs[i]? = some d) (hk : P.kind d = .dir)
    {x : Info} (hp : s.cache.get (P.path d) = some x) (hxe : x.exist = false) :
    s.fs (P.path d) = none ∧ (s'.fs (P.path d)).isSome := by
  simp only [step, hi] at h
  split at h
  · cases h
  · split at h
    · rename_i q hfe
      cases h
      have hv : view s.fs s.cache (P.path d) = x := by simp [view, hp]
      rcases finish_cases hfe with ⟨_, _, h1, _⟩ | ⟨_, _, h1⟩ | ⟨_, _, h1, h2, _⟩
      · have := h1 hk rfl
        rw [hv, hxe] at this; cases this
      · exact absurd hk h1
      · refine ⟨h1, ?_⟩
        simp only
        rw [h2]; simp [makedirs, h1]
    · cases h

/-- what a process knows about a directory that was missing when it began -/
theorem Shared.missing (hS : Sound P canon) {fs0 fs : FS α} {t0 t : Nat} {h : Hist α} {js : List (Job P canon)}
    (hx : Shared P canon fs0 t0 h js fs t) {d : Nat} (hd : Registered P.reg d) (hkd : P.kind d = .dir) (hf : P.force d = false)
    {k : Nat} {j : Job P canon} (hj : js[k]? = some j) (hnone : j.fs (P.path d) = none) :
    ((∀ w i r fs1, (k, Ev.sched (.finish w i r), fs1) ∈ h → j.B.objs[i]? ≠ some d) →
      ∃ x, j.info.get (P.path d) = some x ∧ x.exist = false) ∧
    ∀ w i fs1 a b, h = a ++ (k, Ev.sched (.finish w i .ok), fs1) :: b → j.B.objs[i]? = some d →
      fs1 (P.path d) = none ∧ (fs (P.path d)).isSome ∧ ∀ x ∈ b, (x.2.2 (P.path d)).isSome := by
  induction hx generalizing k j with
  | start => simp at hj
  | @launch h js fs t root V B hx hroot hk _ ih =>
    by_cases hlt : k < js.length
    · rw [List.getElem?_append_left hlt] at hj
      exact ih hj hnone
    · rw [List.getElem?_append_right (by omega)] at hj
      obtain ⟨h1, h2⟩ := List.getElem?_eq_some_iff.1 hj
      simp only [List.getElem_singleton] at h2
      subst h2
      refine ⟨fun _ => ?_, ?_⟩
      · obtain ⟨lim, l, hl, hev⟩ := B.cached
        have hp : IsPath P d := Or.inr (Or.inr hkd)
        have hsome := (evalCache_looks l [] B.cache1 hev).2 d ((hl d).2 ⟨hd, hS.upd d hd (by rw [hkd]; simp)⟩) hp hf
        obtain ⟨x, hx⟩ := Option.isSome_iff_exists.1 hsome
        refine ⟨x, hx, ?_⟩
        have hv := congrFun (evalCache_ok l [] B.cache1 hev) (P.path d)
        simp only at hnone
        rw [view_nil, show view V B.cache1 (P.path d) = x by simp [view, hx]] at hv
        rw [hv, fileinfo_exist, hnone]; rfl
      · intro w i fs1 a b he _
        exact absurd (hx.going.known (k, Ev.sched (.finish w i .ok), fs1) (by rw [he]; simp)) hlt
  | @step h js fs t s' m jm e hx hjm hst ih =>
    obtain ⟨j0, h0, he0⟩ := set_static hjm hj
    have hn0 : j0.fs (P.path d) = none := by rw [he0] at hnone; exact hnone
    have hB : ∀ i : Nat, j.B.objs[i]? = some d ↔ j0.B.objs[i]? = some d := by intro i; rw [he0]
    obtain ⟨ih1, ih2⟩ := ih h0 hn0
    obtain ⟨hroot, _, hex⟩ := hx.going.exec k j0 h0
    have hown : ∀ w i r, m = k → e = .sched (.finish w i r) → j0.B.objs[i]? = some d →
        ∀ w' i' r' fs1, (k, Ev.sched (.finish w' i' r'), fs1) ∈ h → j0.B.objs[i']? ≠ some d := by
      rintro w i r rfl rfl hi w' i' r' fs1 hm hi'
      rw [hjm] at h0; cases h0
      have := jm.B.idx hS hroot hi hi'
      subst this
      have hrun : Solver.WS.run i ∈ jm.sol.ws := by
        rcases step_sol hst with ⟨x, hxe, hs⟩ | ⟨hne, _⟩
        · cases hxe
          simp only [Solver.step] at hs
          split at hs
          · rename_i hc; exact List.mem_of_getElem? hc.1
          · cases hs
        · exact absurd rfl (hne _)
      exact (running_startedE hS hroot hex hrun).2 (Solver.mem_ends.2 ⟨w', r', mem_own_sched.2 ⟨_, hm⟩⟩)
    refine ⟨?_, ?_⟩
    · intro hall
      obtain ⟨x, hxi, hxe⟩ := ih1 fun w i r fs1 hm => by
        rw [Ne, ← hB]; exact hall w i r fs1 (List.mem_append_left _ hm)
      rcases set_job hjm hj with ⟨rfl, rfl⟩ | ⟨hne, hj'⟩
      · rw [hjm] at h0; cases h0
        refine ⟨x, ?_, hxe⟩
        refine step_info hst hxi ?_
        rintro w i r o rfl hi hp
        have := path_inj hS (jm.B.reg hS hroot hi) hd hp
        subst this
        exact hall w i r fs (by simp) hi
      · rw [hj'] at h0; cases h0
        exact ⟨x, hxi, hxe⟩
    · intro w i fs1 a b hab hi
      have hi0 := (hB i).1 hi
      rcases List.eq_nil_or_concat b with rfl | ⟨q, z, rfl⟩
      · obtain ⟨h1, h2⟩ := List.append_inj' hab rfl
        subst h1
        simp only [List.cons.injEq, Prod.mk.injEq, and_true] at h2
        obtain ⟨rfl, rfl, rfl⟩ := h2
        obtain ⟨x, hxi, hxe⟩ := ih1 (hown w i .ok rfl rfl hi0)
        rw [hjm] at h0; cases h0
        obtain ⟨h3, h4⟩ := step_dir hst hi0 hkd hxi hxe
        exact ⟨h3, h4, by simp⟩
      · rw [List.concat_eq_append, ← List.cons_append, ← List.append_assoc] at hab
        obtain ⟨h1, h2⟩ := List.append_inj' hab rfl
        cases h2
        obtain ⟨h3, h4, h5⟩ := ih2 w i fs1 a q h1 hi0
        refine ⟨h3, step_keep hst h4, ?_⟩
        intro x hx
        rw [List.concat_eq_append] at hx
        rcases List.mem_append.1 hx with hx | hx
        · exact h5 x hx
        · rw [List.mem_singleton] at hx; subst hx; exact h4

/-- a process in which an exception was raised never returns -/
theorem Shared.raised (hS : Sound P canon) {fs0 fs : FS α} {t0 t : Nat} {h : Hist α} {js : List (Job P canon)}
    (hx : Shared P canon fs0 t0 h js fs t) {k : Nat} {j : Job P canon} (hj : js[k]? = some j) {w i : Nat} {fs1 : FS α}
    (hr : (k, Ev.sched (.finish w i .raise), fs1) ∈ h) : ¬ j.sol.returned := by
  obtain ⟨hroot, _, hex⟩ := hx.going.exec k j hj
  obtain ⟨_, order, lim, ho, hg⟩ := j.B.prep hS hroot
  exact Solver.C08_violated ho hg hex w i (mem_own_sched.2 ⟨_, hr⟩)

/-- making a directory ends successfully or with an exception -/
theorem Shared.dir_ret {fs0 fs : FS α} {t0 t : Nat} {h : Hist α} {js : List (Job P canon)}
    (hx : Shared P canon fs0 t0 h js fs t) {k : Nat} {j : Job P canon} (hj : js[k]? = some j) {w i : Nat} {r : Solver.Ret} {fs1 : FS α}
    (hm : (k, Ev.sched (.finish w i r), fs1) ∈ h) {d : Nat} (hi : j.B.objs[i]? = some d) (hkd : P.kind d = .dir) : r ≠ .fail := by
  induction hx generalizing j with
  | start => cases hm
  | @launch h js fs t root V B hx hroot hk _ ih =>
    have hlt := hx.going.known _ hm
    rw [List.getElem?_append_left hlt] at hj
    exact ih hj hm hi
  | @step h js fs t s' m jm e hx hjm hst ih =>
    obtain ⟨j0, h0, he0⟩ := set_static hjm hj
    have hi0 : j0.B.objs[i]? = some d := by rw [he0] at hi; exact hi
    rcases List.mem_append.1 hm with hm | hm
    · exact ih h0 hm hi0
    · rw [List.mem_singleton] at hm
      cases hm
      rw [h0] at hjm; cases hjm
      rintro rfl
      simp only [Make.step, hi0] at hst
      split at hst
      · cases hst
      · split at hst
        · rename_i q hfe
          unfold finishEffect at hfe
          rw [hkd] at hfe
          simp only at hfe
          split at hfe
          · cases hfe
          · split at hfe
            · rename_i h1 h2; cases h2
            · rename_i h1; cases h1
            · cases hfe
        · cases hst

/-- **C136 violated**, for every project: if two processes have seen that a directory which both have to make is missing, they do not both
succeed.  One of them makes it; in the other the attempt ends with an exception, and then `makefile` never returns. -/
theorem C136_violated (hS : Sound P canon) {fs0 fs : FS α} {t0 t : Nat} {h : Hist α} {js : List (Job P canon)}
    (hx : Shared P canon fs0 t0 h js fs t) {d : Nat} (hkd : P.kind d = .dir) (hf : P.force d = false)
    {k k' : Nat} (hne : k ≠ k') {j j' : Job P canon} (hj : js[k]? = some j) (hj' : js[k']? = some j')
    (hd : Closure canon P.reg j.root d) (hd' : Closure canon P.reg j'.root d)
    (hm : j.fs (P.path d) = none) (hm' : j'.fs (P.path d) = none) :
    ¬ (j.Succeeded ∧ j'.Succeeded) ∧
    (∀ w i f w' i' f', (k, Ev.sched (.finish w i .ok), f) ∈ h → j.B.objs[i]? = some d →
      (k', Ev.sched (.finish w' i' .ok), f') ∈ h → j'.B.objs[i']? ≠ some d) ∧
    ∀ w i r f, (k, Ev.sched (.finish w i r), f) ∈ h → j.B.objs[i]? = some d → r ≠ .ok → ¬ j.sol.returned := by
  have G := hx.going
  have key : ∀ w i f w' i' f', (k, Ev.sched (.finish w i .ok), f) ∈ h → j.B.objs[i]? = some d →
      (k', Ev.sched (.finish w' i' .ok), f') ∈ h → j'.B.objs[i']? ≠ some d := by
    intro w i f w' i' f' he hi he' hi'
    have hreg := j.B.reg hS (G.exec k j hj).1 hi
    obtain ⟨a, b, hab⟩ := List.append_of_mem he
    obtain ⟨a', b', hab'⟩ := List.append_of_mem he'
    obtain ⟨h1, _, h3⟩ := (hx.missing hS hreg hkd hf hj hm).2 w i f a b hab hi
    obtain ⟨h1', _, h3'⟩ := (hx.missing hS hreg hkd hf hj' hm').2 w' i' f' a' b' hab' hi'
    rw [hab] at he'
    rcases List.mem_append.1 he' with hin | hin
    · -- k' was first
      obtain ⟨a1, a2, ha⟩ := List.append_of_mem hin
      have := ((hx.missing hS hreg hkd hf hj' hm').2 w' i' f' a1 (a2 ++ (k, Ev.sched (.finish w i .ok), f) :: b)
        (by rw [hab, ha]; simp) hi').2.2 (k, Ev.sched (.finish w i .ok), f) (by simp)
      simp [h1] at this
    · rcases List.mem_cons.1 hin with hin | hin
      · cases hin; exact hne rfl
      · have := h3 _ hin
        simp [h1'] at this
  refine ⟨?_, key, ?_⟩
  swap
  · intro w i r f he hi hr
    refine hx.raised hS hj (w := w) (i := i) (fs1 := f) ?_
    have := hx.dir_ret hj he hi hkd
    cases r with
    | ok => exact absurd rfl hr
    | fail => exact absurd rfl this
    | raise => exact he
  rintro ⟨hs, hs'⟩
  obtain ⟨hroot, _, hex⟩ := G.exec k j hj
  obtain ⟨hroot', _, hex'⟩ := G.exec k' j' hj'
  obtain ⟨i, w, hi, he⟩ := finishedE hS hroot hex hs.1 hs.2 hd
  obtain ⟨i', w', hi', he'⟩ := finishedE hS hroot' hex' hs'.1 hs'.2 hd'
  obtain ⟨f, he⟩ := mem_own_sched.1 he
  obtain ⟨f', he'⟩ := mem_own_sched.1 he'
  exact key w i f w' i' f' he hi he' hi'

/-! ### concrete cases -/

/-! ### when all succeed -/

/-- what a file cache says about a path that exists -/
theorem step_exist {root : Nat} {fs1 : FS α} {cache1 : FileCache} {B : Invocation P canon root fs1 cache1} {s s' : St α} {e : Ev α}
    (h : Make.step P B.need B.objs B.g s e = some s') {p : String} (hp : (s.fs p).isSome)
    (hc : ∀ x, s.cache.get p = some x → x.exist = true) :
    ∀ x, s'.cache.get p = some x → x.exist = true := by
  have hp' := step_keep h hp
  have hu : ∀ (fs : FS α) (c : FileCache) (q : String), (fs p).isSome → (∀ x, c.get p = some x → x.exist = true) →
      ∀ x, (updateInfo fs c q).get p = some x → x.exist = true := by
    intro fs c q hf hc x hx
    unfold updateInfo at hx
    by_cases hq : q = p
    · subst hq
      rw [Dict.get_set_self] at hx
      cases hx
      rw [fileinfo_exist]; exact hf
    · rw [Dict.get_set_ne _ _ (by simpa using hq)] at hx
      exact hc x hx
  have hg : ∀ (q : String), ∀ x, ((getInfo s.fs s.cache q).2).get p = some x → x.exist = true := by
    intro q
    unfold getInfo
    split
    · exact hc
    · exact hu _ _ _ hp hc
  cases e with
  | tick => cases h; exact hc
  | write i v =>
    simp only [Make.step] at h
    split at h
    · split at h
      · cases h; exact hc
      · cases h
    · cases h
  | sched e =>
    simp only [Make.step] at h
    split at h
    · cases h
    · split at h
      · rename_i w i r _
        split at h
        · rename_i o ho
          split at h
          · rename_i q hfe
            cases h
            simp only at hp' ⊢
            unfold finishEffect at hfe
            split at hfe
            · simp only at hfe
              split at hfe
              · split at hfe
                · cases hfe; exact hg _
                · cases hfe
              · split at hfe
                · cases hfe
                  exact hu _ _ _ hp' (hg _)
                · cases hfe; exact hg _
                · cases hfe
            · split at hfe
              · split at hfe
                · cases hfe; exact hc
                · cases hfe
              · split at hfe
                · cases hfe; exact hc
                · cases hfe
              · split at hfe
                · split at hfe
                  · cases hfe; exact hu _ _ _ hp hc
                  · cases hfe
                · split at hfe
                  · cases hfe; exact hc
                  · cases hfe
                · split at hfe
                  · cases hfe; exact hc
                  · cases hfe; exact hu _ _ _ hp hc
                · cases hfe; exact hc
          · cases h
        · cases h
      · cases h; exact hc

/-- a process that has seen a path goes on to believe that it exists, and rightly so -/
theorem Shared.there {fs0 fs : FS α} {t0 t : Nat} {h : Hist α} {js : List (Job P canon)} (hx : Shared P canon fs0 t0 h js fs t)
    {k : Nat} {j : Job P canon} (hj : js[k]? = some j) {p : String} (hp : (j.fs p).isSome) :
    (fs p).isSome ∧ ∀ x, j.info.get p = some x → x.exist = true := by
  induction hx generalizing k j with
  | start => simp at hj
  | @launch h js fs t root V B hx hroot hk hV ih =>
    by_cases hlt : k < js.length
    · rw [List.getElem?_append_left hlt] at hj
      exact ih hj hp
    · rw [List.getElem?_append_right (by omega)] at hj
      obtain ⟨h1, h2⟩ := List.getElem?_eq_some_iff.1 hj
      simp only [List.getElem_singleton] at h2
      subst h2
      simp only at hp ⊢
      constructor
      · obtain ⟨f, hf, hVf⟩ := hV p
        rw [hVf] at hp
        rcases List.mem_cons.1 hf with rfl | hf
        · exact hp
        · obtain ⟨x, hxm, rfl⟩ := List.mem_map.1 hf
          exact (hx.keep (a := h) (b := []) (by simp) hxm hp).1
      · intro x hxg
        obtain ⟨lim, l, hl, hev⟩ := B.cached
        have hv := congrFun (evalCache_ok l [] B.cache1 hev) p
        rw [view_nil, show view V B.cache1 p = x by simp [view, hxg]] at hv
        rw [hv, fileinfo_exist]; exact hp
  | @step h js fs t s' m jm e hx hjm hst ih =>
    obtain ⟨j0, h0, he0⟩ := set_static hjm hj
    obtain ⟨h1, h2⟩ := ih h0 (by rw [he0] at hp; exact hp)
    refine ⟨step_keep hst h1, ?_⟩
    rcases set_job hjm hj with ⟨rfl, rfl⟩ | ⟨hne, hj'⟩
    · rw [hjm] at h0; cases h0
      exact step_exist hst h1 h2
    · rw [hj'] at h0; cases h0
      exact h2

/-- the work function of a target whose command, if it has one, succeeds, and whose directory, if it is one, exists -/
theorem finish_iff (hS : Sound P canon) {root : Nat} {fs1 : FS α} {cache1 : FileCache} (B : Invocation P canon root fs1 cache1)
    (hroot : Registered P.reg root) (hk : P.kind root ≠ .other) {o : Nat} (ho : Closure canon P.reg root o) (s : St α)
    (hd : P.kind o = .dir → (view s.fs s.cache (P.path o)).exist = true) :
    (∃ q, finishEffect P B.need s o .ok = some q) ∧
    (P.kind o ≠ .file → ∀ r q, finishEffect P B.need s o r = some q → r = .ok) := by
  have hkind := closure_kind hS hk ho
  have hw : work P.reg B.need o = .calls ∨ work P.reg B.need o = .skips := by
    obtain ⟨h1, h2⟩ := need_closure hS hroot hk B ho
    by_cases hn : NeedsWork P canon (view fs1 cache1) o
    · exact Or.inl (h1.2 hn)
    · exact Or.inr (h2.2 hn)
  unfold finishEffect
  cases hko : P.kind o with
  | dir =>
    simp only [getInfo_fst, hd hko, if_true]
    refine ⟨⟨_, rfl⟩, fun _ r q h => ?_⟩
    split at h
    · rename_i hr; exact hr
    · cases h
  | other => exact absurd hko hkind
  | file =>
    refine ⟨?_, fun h => absurd rfl h⟩
    rcases hw with hw | hw <;> simp [hw]
  | source =>
    rcases hw with hw | hw <;> simp only [hw, if_true] <;> refine ⟨⟨_, rfl⟩, fun _ r q h => ?_⟩ <;>
    · split at h
      · rename_i hr; exact hr
      · cases h
  | fileset =>
    rcases hw with hw | hw <;> simp only [hw, if_true] <;> refine ⟨⟨_, rfl⟩, fun _ r q h => ?_⟩ <;>
    · split at h
      · rename_i hr; exact hr
      · cases h

/-- all that ends in such a process ends well -/
theorem Shared.ends (hS : Sound P canon) {fs0 fs : FS α} {t0 t : Nat} {h : Hist α} {js : List (Job P canon)}
    (hx : Shared P canon fs0 t0 h js fs t) {k : Nat} {j : Job P canon} (hj : js[k]? = some j)
    (hdirs : ∀ d, Closure canon P.reg j.root d → P.kind d = .dir → (j.fs (P.path d)).isSome)
    {w i : Nat} {r : Solver.Ret} {fs1 : FS α} (hm : (k, Ev.sched (.finish w i r), fs1) ∈ h) :
    ∃ o, j.B.objs[i]? = some o ∧ (P.kind o ≠ .file → r = .ok) := by
  induction hx generalizing j with
  | start => cases hm
  | @launch h js fs t root V B hx hroot hk _ ih =>
    have hlt := hx.going.known _ hm
    rw [List.getElem?_append_left hlt] at hj
    exact ih hj hdirs hm
  | @step h js fs t s' m jm e hx hjm hst ih =>
    obtain ⟨j0, h0, he0⟩ := set_static hjm hj
    have hd0 : ∀ d, Closure canon P.reg j0.root d → P.kind d = .dir → (j0.fs (P.path d)).isSome := by
      rw [he0] at hdirs; exact hdirs
    have hB : ∀ (i o : Nat), j.B.objs[i]? = some o ↔ j0.B.objs[i]? = some o := by intro i o; rw [he0]
    rcases List.mem_append.1 hm with hm | hm
    · obtain ⟨o, h1, h2⟩ := ih h0 hd0 hm
      exact ⟨o, (hB i o).2 h1, h2⟩
    · rw [List.mem_singleton] at hm
      cases hm
      rw [h0] at hjm; cases hjm
      obtain ⟨hroot, hkr, _⟩ := hx.going.exec _ _ h0
      simp only [Make.step] at hst
      split at hst
      · cases hst
      · split at hst
        · rename_i o ho
          refine ⟨o, (hB i o).2 ho, fun hk => ?_⟩
          have hcl := jm.B.closure hS hroot ho
          split at hst
          · rename_i q hfe
            refine (finish_iff hS jm.B hroot hkr hcl _ ?_).2 hk r q hfe
            intro hkd
            obtain ⟨h3, h4⟩ := hx.there h0 (hd0 o hcl hkd)
            unfold view
            cases hg : Dict.get jm.info (P.path o) with
            | none => simp only [Option.getD_none]; rw [fileinfo_exist]; exact h3
            | some x => simp only [Option.getD_some]; exact h4 x hg
          · cases hst
        · cases hst

/-- **C136**, when all succeed: a process that has seen all the directories it needs, with at least one thread and commands that report success,
is not stopped by the others, whatever they do: as long as its `makefile` has not returned it can go on, it has a bounded number of steps,
and `makefile` returns `True`. -/
theorem C136_succeeds (hS : Sound P canon) {fs0 fs : FS α} {t0 t : Nat} {h : Hist α} {js : List (Job P canon)}
    (hx : Shared P canon fs0 t0 h js fs t) {k : Nat} {j : Job P canon} (hj : js[k]? = some j) (hn : 0 < j.B.n)
    (hdirs : ∀ d, Closure canon P.reg j.root d → P.kind d = .dir → (j.fs (P.path d)).isSome)
    (hcmd : ∀ w i r f o, (k, Ev.sched (.finish w i r), f) ∈ h → j.B.objs[i]? = some o → P.kind o = .file → r = .ok) :
    (¬ j.sol.returned → ∃ e s', Make.step P j.B.need j.B.objs j.B.g ⟨j.sol, fs, t, j.info⟩ (.sched e) = some s' ∧
      ∀ w i r, e = .finish w i r → r = .ok) ∧
    (sched (own h k)).length ≤ 2 * j.B.objs.length ∧
    (j.sol.returned → j.sol.verdict = true) := by
  obtain ⟨hroot, hkr, hex⟩ := hx.going.exec k j hj
  obtain ⟨Pr, order, lim, ho, hg⟩ := j.B.prep hS hroot
  have hok : ∀ w i r, Solver.Ev.finish w i r ∈ sched (own h k) → r = .ok := by
    intro w i r hm
    obtain ⟨f, hm⟩ := mem_own_sched.1 hm
    obtain ⟨o, h1, h2⟩ := hx.ends hS hj hdirs hm
    by_cases hk : P.kind o = .file
    · exact hcmd w i r f o hm h1 hk
    · exact h2 hk
  obtain ⟨hlen, hgo⟩ := Solver.C07_terminates ho hg hn hex
  refine ⟨fun hnr => ?_, by rw [← Pr.len]; exact hlen, fun hret => ?_⟩
  · rcases hgo (fun w i hm => by have := hok w i _ hm; cases this) hnr with ⟨w, i, s', hs⟩ | ⟨w, i, ⟨w', hst⟩, _, hs⟩
    · exact ⟨.start w i, ⟨s', fs, t, j.info⟩, by simp [Make.step, hs], fun _ _ _ h => by cases h⟩
    · obtain ⟨s', hs⟩ := hs .ok
      obtain ⟨dep, I, _⟩ := j.B.invE hS hroot hex
      have hlt := I.startedLt i (Solver.mem_starts.2 ⟨w', hst⟩)
      obtain ⟨_, _, _, hsz, _⟩ := Solver.accepted ho hg
      obtain ⟨o, hi⟩ : ∃ o, j.B.objs[i]? = some o := by
        have : i < j.B.objs.length := by rw [← Pr.len, ← hsz]; exact hlt
        exact ⟨_, List.getElem?_eq_getElem this⟩
      have hcl := j.B.closure hS hroot hi
      obtain ⟨q, hq⟩ := (finish_iff hS j.B hroot hkr hcl ⟨s', fs, t, j.info⟩ (by
        intro hkd
        obtain ⟨h3, h4⟩ := hx.there hj (hdirs o hcl hkd)
        unfold view
        cases hg : Dict.get j.info (P.path o) with
        | none => simp only [Option.getD_none]; rw [fileinfo_exist]; exact h3
        | some x => simp only [Option.getD_some]; exact h4 x hg)).1
      refine ⟨.finish w i .ok, ⟨s', q.1, t, q.2⟩, ?_, fun _ _ _ h => by cases h; rfl⟩
      simp only [Make.step, hs, hi]
      have : finishEffect P j.B.need ⟨j.sol, fs, t, j.info⟩ o .ok = some q := hq
      rw [this]
  · exact (Solver.C06_verdict ho hg (fun _ => .ok) hex (fun w i r hm => hok w i r hm) hret).2 (fun _ _ h => by cases h)


/-- a list of events -/
def runShared (P : Proj α) (canon : String → String) : Hist α × List (Job P canon) × FS α × Nat → List (Nat × Ev α) →
    Option (Hist α × List (Job P canon) × FS α × Nat)
  | c, [] => some c
  | c, x :: xs =>
    match c.2.1[x.1]? with
    | some j =>
      (Make.step P j.B.need j.B.objs j.B.g ⟨j.sol, c.2.2.1, c.2.2.2, j.info⟩ x.2).bind fun s' =>
        runShared P canon (c.1 ++ [(x.1, x.2, c.2.2.1)], c.2.1.set x.1 { j with sol := s'.sol, info := s'.cache }, s'.fs, s'.clock) xs
    | none => none

theorem runShared_ok {fs0 : FS α} {t0 : Nat} : ∀ (xs : List (Nat × Ev α)) (c c' : Hist α × List (Job P canon) × FS α × Nat),
    Shared P canon fs0 t0 c.1 c.2.1 c.2.2.1 c.2.2.2 → runShared P canon c xs = some c' →
    Shared P canon fs0 t0 c'.1 c'.2.1 c'.2.2.1 c'.2.2.2 := by
  intro xs
  induction xs with
  | nil => intro c c' h he; cases he; exact h
  | cons x xs ih =>
    intro c c' h he
    simp only [runShared] at he
    split at he
    · rename_i j hj
      rw [Option.bind_eq_some_iff] at he
      obtain ⟨s', h1, h2⟩ := he
      exact ih _ c' (.step x.1 j x.2 h hj h1) h2
    · cases he

/-- all seen at one moment -/
theorem seen_now (h : Hist α) (fs : FS α) : ∀ p, ∃ f ∈ fs :: h.map (·.2.2), fs p = f p := fun _ => ⟨fs, by simp, rfl⟩

/-- two processes begin to build the demo project when its directory is missing -/
def twoJobs : List (Job demo id) :=
  [⟨4, demoFs, demoB, Solver.init demoB.g demoB.n, demoB.cache1⟩, ⟨4, demoFs, demoB, Solver.init demoB.g demoB.n, demoB.cache1⟩]

theorem twoJobs_shared : Shared demo id demoFs 7 [] twoJobs demoFs 7 :=
  .launch 4 _ demoB (.launch 4 _ demoB .start demo_root (by decide) (seen_now _ _)) demo_root (by decide) (seen_now _ _)

/-- the first one makes the directory; the second one tries -/
def twoTr : List (Nat × Ev Nat) :=
  [(0, .sched (.start 0 0)), (1, .sched (.start 0 0)), (0, .sched (.finish 0 0 .ok)), (1, .sched (.finish 0 0 .ok)),
   (0, .sched (.start 0 2)), (1, .sched (.start 0 2)), (0, .sched (.finish 0 2 .ok)), (1, .sched (.finish 0 2 .raise))]

theorem two_run : ∃ c, runShared demo id ([], twoJobs, demoFs, 7) twoTr = some c ∧ (∃ f, (1, Ev.sched (.finish 0 2 .raise), f) ∈ c.1) ∧
    c.2.1.length = 2 := ⟨_, rfl, ⟨_, List.mem_append_right _ (List.mem_singleton.2 rfl)⟩, rfl⟩

/-- Witness for C136_violated: its hypotheses hold of two processes that begin in a fresh checkout of the demo project, and there is an
execution in which the second one comes to the directory when the first has made it. -/
theorem C136_violated_witness : ∃ h js fs t, Shared demo id demoFs 7 h js fs t ∧
    (∃ j j', js[0]? = some j ∧ js[1]? = some j' ∧ j.root = 4 ∧ j'.root = 4 ∧ j.fs = demoFs ∧ j'.fs = demoFs) ∧
    (demo.kind 1 = .dir ∧ demo.force 1 = false ∧ Closure id demo.reg 4 1 ∧ demoFs (demo.path 1) = none) ∧
    ∃ f, (1, Ev.sched (.finish 0 2 .raise), f) ∈ h := by
  obtain ⟨c, hc, hr, _⟩ := two_run
  have h0 : ∃ j j', c.2.1[0]? = some j ∧ c.2.1[1]? = some j' ∧ j.root = 4 ∧ j'.root = 4 ∧ j.fs = demoFs ∧ j'.fs = demoFs := by
    cases hc
    exact ⟨_, _, rfl, rfl, rfl, rfl, rfl, rfl⟩
  exact ⟨_, _, _, _, runShared_ok twoTr ([], twoJobs, demoFs, 7) c twoJobs_shared hc, h0,
    ⟨rfl, rfl, .tail (b := 3) (.single (demo_dep.2 (by decide))) (demo_dep.2 (by decide)), rfl⟩, hr⟩

/-! a project whose directory exists -/

/-- only the source and the directory -/
def demoFsD : FS Nat := fun p => if p = "a.c" then some ⟨1, some 5⟩ else if p = "d" then some ⟨1, none⟩ else none

def demoBD : Invocation demo id 4 demoFsD [] := .of (lim := 10) (lim' := 10) (n := 1) _ demo_all rfl rfl rfl

def twoJobsD : List (Job demo id) :=
  [⟨4, demoFsD, demoBD, Solver.init demoBD.g demoBD.n, demoBD.cache1⟩, ⟨4, demoFsD, demoBD, Solver.init demoBD.g demoBD.n, demoBD.cache1⟩]

theorem twoJobsD_shared : Shared demo id demoFsD 7 [] twoJobsD demoFsD 7 :=
  .launch 4 _ demoBD (.launch 4 _ demoBD .start demo_root (by decide) (seen_now _ _)) demo_root (by decide) (seen_now _ _)

theorem demoD_pristine : Pristine demo demoFsD := by
  intro o ho hk
  have := demo_reg_iff.1 ho
  have : o = 0 ∨ o = 1 ∨ o = 2 ∨ o = 3 ∨ o = 4 := by omega
  rcases this with rfl | rfl | rfl | rfl | rfl <;> first | rfl | cases hk

/-- the two processes build side by side -/
def twoTrD : List (Nat × Ev Nat) :=
  [(0, .sched (.start 0 0)), (0, .sched (.finish 0 0 .ok)), (1, .sched (.start 0 0)), (0, .sched (.start 0 2)),
   (0, .sched (.finish 0 2 .ok)), (0, .sched (.start 0 3)), (0, .write 3 15), (1, .sched (.finish 0 0 .ok)),
   (1, .sched (.start 0 2)), (1, .sched (.finish 0 2 .ok)), (1, .sched (.start 0 3)), (0, .sched (.finish 0 3 .ok)),
   (0, .sched (.start 0 4)), (0, .tick), (1, .write 3 15), (0, .write 4 115), (1, .sched (.finish 0 3 .ok)),
   (0, .sched (.finish 0 4 .ok)), (1, .sched (.start 0 4)), (0, .sched (.start 0 1)), (0, .sched (.finish 0 1 .ok)),
   (1, .write 4 115), (1, .sched (.finish 0 4 .ok)), (1, .sched (.start 0 1)), (1, .sched (.finish 0 1 .ok))]

/-- what `Whole` and `Wrote` ask for, with all inputs read at the moment of the write -/
def neatB [DecidableEq α] (P : Proj α) (js : List (Job P canon)) (h : Hist α) : Bool :=
  (List.range h.length).all fun n =>
    match h[n]? with
    | some (k, .write i v, fs) => (js[k]?).all fun j => (j.B.objs[i]?).all fun o =>
        decide (v = P.cmd o (contents fs)) && (h.take n).any fun
          | (k', .sched (.start _ i'), _) => k' == k && i' == i
          | _ => false
    | some (k, .sched (.finish _ i .ok), _) => (js[k]?).all fun j => (j.B.objs[i]?).all fun o =>
        P.kind o != .file || (match work P.reg j.B.need o with | .calls => false | _ => true) || (h.take n).any fun
          | (k', .write i' _, _) => k' == k && i' == i
          | _ => false
    | _ => true

theorem neat [DecidableEq α] {js : List (Job P canon)} {h : Hist α} (hb : neatB P js h = true) : Whole h js ∧ Wrote h js := by
  unfold neatB at hb
  rw [List.all_eq_true] at hb
  constructor
  · intro h1 k i v fs h2 he j o hj hi
    have := hb h1.length (by rw [List.mem_range, he]; simp)
    rw [he] at this
    simp only [List.getElem?_append_right (le_refl _), Nat.sub_self, List.getElem?_cons_zero, List.take_left', hj, hi, Option.all_some,
      Bool.and_eq_true, decide_eq_true_eq, List.any_eq_true] at this
    obtain ⟨hv, ⟨k', e, fs1⟩, hm, hx⟩ := this
    refine ⟨contents fs, hv, fun o' _ => ⟨h1, [], (k, .write i v, fs), rfl, ?_, rfl⟩⟩
    cases e with
    | sched e =>
      cases e with
      | start w i' =>
        simp only [Bool.and_eq_true, beq_iff_eq] at hx
        obtain ⟨rfl, rfl⟩ := hx
        exact ⟨w, fs1, hm⟩
      | _ => cases hx
    | _ => cases hx
  · intro h1 k w i fs h2 he j o hj hi hk hw
    have := hb h1.length (by rw [List.mem_range, he]; simp)
    rw [he] at this
    simp only [List.getElem?_append_right (le_refl _), Nat.sub_self, List.getElem?_cons_zero, List.take_left', hj, hi, Option.all_some,
      hk, hw, bne_self_eq_false, Bool.false_or, List.any_eq_true] at this
    obtain ⟨⟨k', e, fs1⟩, hm, hx⟩ := this
    cases e with
    | write i' v =>
      simp only [Bool.and_eq_true, beq_iff_eq] at hx
      obtain ⟨rfl, rfl⟩ := hx
      exact ⟨v, fs1, hm⟩
    | _ => cases hx

/-- Non-vacuity of C136_partial: two processes build side by side, both write both files, and both succeed. -/
example : ∃ (c : Hist Nat × List (Job demo id) × FS Nat × Nat) (j j' : Job demo id), Stamped demo id demoFsD 6 ∧ Shared demo id demoFsD (6 + 1) c.1 c.2.1 c.2.2.1 c.2.2.2 ∧ Whole c.1 c.2.1 ∧ Wrote c.1 c.2.1 ∧
    c.2.1[0]? = some j ∧ j.Succeeded ∧ c.2.1[1]? = some j' ∧ j'.Succeeded ∧ contents c.2.2.1 "d/app" = some 115 := by
  have hn : neatB demo ((runShared demo id ([], twoJobsD, demoFsD, 7) twoTrD).getD ([], [], demoFsD, 7)).2.1
    ((runShared demo id ([], twoJobsD, demoFsD, 7) twoTrD).getD ([], [], demoFsD, 7)).1 = true := by decide +kernel
  exact ⟨(runShared demo id ([], twoJobsD, demoFsD, 7) twoTrD).getD ([], [], demoFsD, 7), _, _, .checkout demoD_pristine,
    runShared_ok twoTrD ([], twoJobsD, demoFsD, 7) _ twoJobsD_shared rfl, (neat hn).1, (neat hn).2, rfl, ⟨rfl, rfl⟩, rfl, ⟨rfl, rfl⟩,
    by decide +kernel⟩

/-- after that -/
def twoEnd : Hist Nat × List (Job demo id) × FS Nat × Nat := (runShared demo id ([], twoJobsD, demoFsD, 7) twoTrD).getD ([], [], demoFsD, 7)

/-- what a third process has seen, which looked at `d/app` at first, and at everything else when the others were ready -/
def mixSeen : FS Nat := fun p => if p = "d/app" then demoFsD p else twoEnd.2.2.1 p

def mixB : Invocation demo id 4 mixSeen [] := .of (lim := 10) (lim' := 10) (n := 1) _ demo_all rfl rfl rfl

/-- it makes `d/app` again, and nothing else -/
def mixTr : List (Nat × Ev Nat) :=
  [(2, .sched (.start 0 0)), (2, .sched (.finish 0 0 .ok)), (2, .sched (.start 0 2)), (2, .sched (.finish 0 2 .ok)), (2, .sched (.start 0 3)),
   (2, .sched (.finish 0 3 .ok)), (2, .sched (.start 0 4)), (2, .write 4 115), (2, .sched (.finish 0 4 .ok)),
   (2, .sched (.start 0 1)), (2, .sched (.finish 0 1 .ok))]

def mixEnd : Hist Nat × List (Job demo id) × FS Nat × Nat :=
  (runShared demo id (twoEnd.1, twoEnd.2.1 ++ [⟨4, mixSeen, mixB, Solver.init mixB.g mixB.n, mixB.cache1⟩], twoEnd.2.2.1, twoEnd.2.2.2) mixTr).getD
    ([], [], demoFsD, 7)

/-- Non-vacuity of C136_partial: a process that has seen different files at different moments. -/
example : ∃ j : Job demo id, Shared demo id demoFsD (6 + 1) mixEnd.1 mixEnd.2.1 mixEnd.2.2.1 mixEnd.2.2.2 ∧ Whole mixEnd.1 mixEnd.2.1 ∧
    Wrote mixEnd.1 mixEnd.2.1 ∧ mixEnd.2.1[2]? = some j ∧ j.Succeeded ∧ j.B.need 2 = some false ∧ j.B.need 3 = some true := by
  have h1 : Shared demo id demoFsD 7 twoEnd.1 twoEnd.2.1 twoEnd.2.2.1 twoEnd.2.2.2 :=
    runShared_ok twoTrD ([], twoJobsD, demoFsD, 7) _ twoJobsD_shared rfl
  have h2 := Shared.launch 4 mixSeen mixB h1 demo_root (by decide) (by
    intro p
    by_cases hp : p = "d/app"
    · exact ⟨demoFsD, List.mem_cons_of_mem _ (List.mem_map.2 ⟨(0, .sched (.start 0 0), demoFsD), List.mem_cons_self, rfl⟩), by simp [mixSeen, hp]⟩
    · exact ⟨_, List.mem_cons_self, by simp [mixSeen, hp]⟩)
  have hn : neatB demo mixEnd.2.1 mixEnd.1 = true := by decide +kernel
  exact ⟨_, runShared_ok mixTr (twoEnd.1, twoEnd.2.1 ++ [⟨4, mixSeen, mixB, Solver.init mixB.g mixB.n, mixB.cache1⟩], twoEnd.2.2.1, twoEnd.2.2.2) mixEnd h2 rfl, (neat hn).1, (neat hn).2, rfl, ⟨rfl, rfl⟩, rfl, rfl⟩

/-- Non-vacuity of C136_succeeds: it applies to all three processes of the examples. -/
example : ∀ (k : Nat) (j : Job demo id), mixEnd.2.1[k]? = some j → 0 < j.B.n ∧ j.root = 4 ∧
    (∀ d, demo.kind d = .dir → (j.fs (demo.path d)).isSome) ∧
    ∀ w i r f, (k, Ev.sched (.finish w i r), f) ∈ mixEnd.1 → r = .ok := by
  intro k j hj
  have hlen : mixEnd.2.1.length = 3 := rfl
  have hk : k < 3 := by rw [← hlen]; exact (List.getElem?_eq_some_iff.1 hj).1
  have hr : ∀ w i r f, (k, Ev.sched (.finish w i r), f) ∈ mixEnd.1 → r = .ok := by
    have : (mixEnd.1.all fun x => match x with | (_, .sched (.finish _ _ r), _) => r == .ok | _ => true) = true := by decide +kernel
    rw [List.all_eq_true] at this
    intro w i r f hm
    simpa using this _ hm
  have hd : ∀ (f : FS Nat), (f "d").isSome → ∀ d, demo.kind d = .dir → (f (demo.path d)).isSome := by
    intro f hf d hkd
    have : d = 1 := by
      rcases d with _ | _ | _ | _ | _ | d <;> first | rfl | cases hkd
    subst this
    exact hf
  have : k = 0 ∨ k = 1 ∨ k = 2 := by omega
  rcases this with rfl | rfl | rfl <;> cases hj <;> exact ⟨Nat.one_pos, rfl, hd _ rfl, hr⟩

/-! commands that write bit by bit -/

/-- Build commands that reported success have, at last, written what they make of their inputs. -/
def Finally (h : Hist α) (js : List (Job P canon)) : Prop :=
  ∀ h1 k w i fs h2, h = h1 ++ (k, .sched (.finish w i .ok), fs) :: h2 → ∀ (j : Job P canon) o, js[k]? = some j →
    j.B.objs[i]? = some o → P.kind o = .file → work P.reg j.B.need o = .calls →
    ∃ a v f c, h1 = a ++ (k, Ev.write i v, f) :: c ∧ (∀ v' f', (k, Ev.write i v', f') ∉ c) ∧ v = P.cmd o (contents f)

/-- the last write to target `i` by process `k`, and the file system before -/
def lastWrite (k i : Nat) : Hist α → Option (α × FS α)
  | [] => none
  | (k', e, f) :: h =>
    match lastWrite k i h with
    | some x => some x
    | none =>
      match e with
      | .write i' v => if k' = k ∧ i' = i then some (v, f) else none
      | _ => none

theorem lastWrite_none {k i : Nat} : ∀ {h : Hist α}, lastWrite k i h = none → ∀ v f, (k, Ev.write i v, f) ∉ h := by
  intro h
  induction h with
  | nil => simp
  | cons x h ih =>
    obtain ⟨k', e, f'⟩ := x
    intro hn v f hm
    simp only [lastWrite] at hn
    split at hn
    · cases hn
    · rename_i hl
      rcases List.mem_cons.1 hm with hm | hm
      · cases hm; simp at hn
      · exact ih hl v f hm

theorem lastWrite_some {k i : Nat} : ∀ {h : Hist α} {v : α} {f : FS α}, lastWrite k i h = some (v, f) →
    ∃ a c, h = a ++ (k, Ev.write i v, f) :: c ∧ ∀ v' f', (k, Ev.write i v', f') ∉ c := by
  intro h
  induction h with
  | nil => intro v f h; cases h
  | cons x h ih =>
    obtain ⟨k', e, f'⟩ := x
    intro v f hn
    simp only [lastWrite] at hn
    split at hn
    · rename_i y hl
      cases hn
      obtain ⟨a, c, rfl, hc⟩ := ih hl
      exact ⟨_ :: a, c, rfl, hc⟩
    · rename_i hl
      split at hn
      · split at hn
        · rename_i hk
          obtain ⟨rfl, rfl⟩ := hk
          cases hn
          exact ⟨[], h, rfl, lastWrite_none hl⟩
        · cases hn
      · cases hn

def finallyB [DecidableEq α] (P : Proj α) (js : List (Job P canon)) (h : Hist α) : Bool :=
  (List.range h.length).all fun n =>
    match h[n]? with
    | some (k, .sched (.finish _ i .ok), _) => (js[k]?).all fun j => (j.B.objs[i]?).all fun o =>
        P.kind o != .file || (match work P.reg j.B.need o with | .calls => false | _ => true) ||
          (lastWrite k i (h.take n)).any fun x => decide (x.1 = P.cmd o (contents x.2))
    | _ => true

theorem finally_of [DecidableEq α] {js : List (Job P canon)} {h : Hist α} (hb : finallyB P js h = true) : Finally h js := by
  unfold finallyB at hb
  rw [List.all_eq_true] at hb
  intro h1 k w i fs h2 he j o hj hi hk hw
  have := hb h1.length (by rw [List.mem_range, he]; simp)
  rw [he] at this
  simp only [List.getElem?_append_right (le_refl _), Nat.sub_self, List.getElem?_cons_zero, List.take_left', hj, hi, Option.all_some,
    hk, hw, bne_self_eq_false, Bool.false_or] at this
  rw [Option.any_eq_true] at this
  obtain ⟨⟨v, f⟩, hl, hv⟩ := this
  obtain ⟨a, c, h3, h4⟩ := lastWrite_some hl
  exact ⟨a, v, f, c, h3, h4, by simpa using hv⟩

/-- the first process has written the first bits of `d/a.o` -/
def halfFs : FS Nat := setFile demoFsD (demo.path 2) ⟨7, some 99⟩

def halfB : Invocation demo id 4 halfFs [] := .of (lim := 10) (lim' := 10) (n := 1) _ demo_all rfl rfl rfl

def halfTr1 : List (Nat × Ev Nat) :=
  [(0, .sched (.start 0 0)), (0, .sched (.finish 0 0 .ok)), (0, .sched (.start 0 2)), (0, .sched (.finish 0 2 .ok)), (0, .sched (.start 0 3)),
   (0, .write 3 99)]

def halfTr2 : List (Nat × Ev Nat) :=
  [(1, .sched (.start 0 0)), (1, .sched (.finish 0 0 .ok)), (1, .sched (.start 0 2)), (1, .sched (.finish 0 2 .ok)), (1, .sched (.start 0 3)),
   (1, .sched (.finish 0 3 .ok)), (1, .sched (.start 0 4)), (1, .write 4 199), (1, .sched (.finish 0 4 .ok)),
   (1, .sched (.start 0 1)), (1, .sched (.finish 0 1 .ok)), (0, .write 3 15), (0, .sched (.finish 0 3 .ok))]

def half1 : Hist Nat × List (Job demo id) × FS Nat × Nat :=
  (runShared demo id ([], [⟨4, demoFsD, demoBD, Solver.init demoBD.g demoBD.n, demoBD.cache1⟩], demoFsD, 7) halfTr1).getD ([], [], demoFsD, 7)

def half2 : Hist Nat × List (Job demo id) × FS Nat × Nat :=
  (runShared demo id (half1.1, half1.2.1 ++ [⟨4, halfFs, halfB, Solver.init halfB.g halfB.n, halfB.cache1⟩], halfFs, half1.2.2.2) halfTr2).getD
    ([], [], demoFsD, 7)

/-- **C136 violated** if commands write bit by bit: the second process begins while the command of the first writes `d/a.o`, takes
the first bits (99) for the file, makes `d/app` (199) of them and succeeds.  Then the first one writes the rest (15); the right contents of
`d/app` are 115. -/
theorem C136_violated_contents : ∃ (h : Hist Nat) (js : List (Job demo id)) (fs : FS Nat) (t : Nat) (j : Job demo id),
    Shared demo id demoFsD 7 h js fs t ∧ Finally h js ∧ js[1]? = some j ∧ j.Succeeded ∧ j.root = 4 ∧
    contents fs "d/a.o" = some 15 ∧ contents fs "d/app" = some 199 ∧ demo.cmd 3 (contents fs) = 115 := by
  have h1 : Shared demo id demoFsD 7 half1.1 half1.2.1 half1.2.2.1 half1.2.2.2 :=
    runShared_ok halfTr1 ([], [⟨4, demoFsD, demoBD, Solver.init demoBD.g demoBD.n, demoBD.cache1⟩], demoFsD, 7) half1
      (.launch 4 _ demoBD .start demo_root (by decide) (seen_now _ _)) rfl
  have h2 : Shared demo id demoFsD 7 half2.1 half2.2.1 half2.2.2.1 half2.2.2.2 :=
    runShared_ok halfTr2 (half1.1, half1.2.1 ++ [⟨4, halfFs, halfB, Solver.init halfB.g halfB.n, halfB.cache1⟩], halfFs, half1.2.2.2) half2
      (.launch (fs := halfFs) 4 _ halfB h1 demo_root (by decide) (seen_now _ _)) rfl
  exact ⟨_, _, _, _, _, h2, finally_of (by decide +kernel), rfl, ⟨rfl, rfl⟩, rfl, by decide +kernel, by decide +kernel, by decide +kernel⟩

end Licant.Make
