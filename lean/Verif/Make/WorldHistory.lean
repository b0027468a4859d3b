/-
Histories of builds in a file system in which other things happen as well: edits while a build runs (C132), builds that
are killed while commands are writing (C133).
-/
import Verif.Make.WorldSim
import Mathlib.Tactic.IntervalCases

set_option autoImplicit false

namespace Licant.Make
open Licant.Py Licant.Core Relation

variable {α : Type} {P : Proj α} {canon : String → String} {up : String → String}

/-! ### specification -/

section Left
variable {root : Nat} {fs : FS α} {cache : FileCache}

/-- The file targets whose contents cannot be trusted after the events `tr` of a build, if those of `D` could not be
trusted before: their command has written something and has not reported success, or has not run. -/
def Left (B : Invocation P canon root fs cache) (tr : List (WEv α)) (D : Nat → Prop) (o : Nat) : Prop :=
  (WrittenW B tr o ∧ ¬ DoneW B tr o) ∨ (¬ WrittenW B tr o ∧ D o)

end Left

/-- `HistoryW P canon up fs t D`: the file system `fs` at time `t` is the result of some history of
* a first checkout without built files,
* changes by hand: edits of paths that are not built files and deletions of anything,
* the passing of time,
* builds of any targets, with any caches, that may end or be killed at any point, also in the middle of commands;
  commands that report success are honest; files are edited while builds run (`Quiet`).
`D` are the built files whose contents cannot be trusted because their last command failed or was killed; deleting the
file removes it from `D`. -/
inductive HistoryW (P : Proj α) (canon : String → String) (up : String → String) : FS α → Nat → (Nat → Prop) → Prop
  | checkout {fs t} : (∀ p e, fs p = some e → e.mtime ≤ t) → Pristine P fs → HistoryW P canon up fs t (fun _ => False)
  | change {fs t D} (p : String) (d : Option (Option α)) : HistoryW P canon up fs t D → (d ≠ none → ¬ IsProduct P p) →
      HistoryW P canon up (touchDirs up (t + 1) [p] fs (change fs (t + 1) p d)) (t + 1) (fun o => D o ∧ P.path o ≠ p)
  | wait {fs t D} : HistoryW P canon up fs t D → HistoryW P canon up fs (t + 1) D
  | build {fs t D root cache tr s} (B : Invocation P canon root fs cache) : HistoryW P canon up fs t D →
      Registered P.reg root → B.RunW up (t + 1) tr s → Honest B up (t + 1) tr → Quiet B up (t + 1) tr →
      HistoryW P canon up s.fs s.clock (Left B tr D)

/-- the contents of the file target `o` are what its command makes of the present files -/
def Right (P : Proj α) (fs : FS α) (o : Nat) : Prop := contents fs (P.path o) = some (P.cmd o (contents fs))

/-- if no input is missing or newer, the contents are right -/
def Sure (P : Proj α) (canon : String → String) (fs : FS α) (o : Nat) : Prop :=
  ∀ e, fs (P.path o) = some e → (∀ o', InputOf P canon o o' → ∃ e', fs (P.path o') = some e' ∧ e'.mtime ≤ e.mtime) →
    Right P fs o

/-- no built file is a directory -/
def ProductsPlain (P : Proj α) (fs : FS α) : Prop :=
  ∀ o, Registered P.reg o → P.kind o = .file → ∀ e, fs (P.path o) = some e → e.data ≠ none

/-! ### one step -/

section Step
variable {root : Nat} {fs0 : FS α} {cache0 : FileCache} {B : Invocation P canon root fs0 cache0} {clock0 : Nat}
  {s s' : St α} {tr : List (WEv α)}

theorem RunW.last {need : Nat → Option Bool} {objs : List Nat} {g : Solver.Graph} {s0 : St α} {e : WEv α}
    (h : RunW P up need objs g s0 (tr ++ [e]) s') : ∃ s, RunW P up need objs g s0 tr s ∧ stepW P up need objs g s e = some s' := by
  generalize ht : tr ++ [e] = t at h
  cases h with
  | nil => simp at ht
  | snoc h1 h2 =>
    obtain ⟨h3, h4⟩ := List.append_inj' ht rfl
    cases h3
    cases h4
    exact ⟨_, h1, h2⟩

theorem RunW.unique {need : Nat → Option Bool} {objs : List Nat} {g : Solver.Graph} {s0 : St α}
    (h : RunW P up need objs g s0 tr s) (h' : RunW P up need objs g s0 tr s') : s = s' :=
  Option.some.inj ((runW_iff.1 h).symm.trans (runW_iff.1 h'))

/-- what one event can do to the path of a file target or source -/
inductive FileStep (B : Invocation P canon root fs0 cache0) (s s' : St α) (o : Nat) : WEv α → Prop
  | same {e} : s'.fs (P.path o) = s.fs (P.path o) → FileStep B s s' o e
  | touched {e} (m : Nat) : s.fs (P.path o) = some ⟨m, none⟩ → s'.fs (P.path o) = some ⟨s.clock, none⟩ → FileStep B s s' o e
  | write {i v} : B.objs[i]? = some o → Solver.WS.run i ∈ s.sol.ws → P.kind o = .file → work P.reg B.need o = .calls →
      s'.fs (P.path o) = some ⟨s.clock, some v⟩ → FileStep B s s' o (.ev (.write i v))
  | other {d} : s'.fs (P.path o) = d.map (fun x => ⟨s.clock, x⟩) → FileStep B s s' o (.other (P.path o) d)

theorem fileStep (hS : Sound P canon) (hroot : Registered P.reg root) {e : WEv α}
    (h : stepW P up B.need B.objs B.g s e = some s') {o : Nat} (ho : Registered P.reg o)
    (hk : P.kind o = .file ∨ P.kind o = .source) : FileStep B s s' o e := by
  cases e with
  | other p d =>
    cases h
    by_cases hp : P.path o = p
    · subst hp
      refine .other ?_
      simp only
      cases d with
      | none => exact touchDirs_none (by simp [change])
      | some d =>
        rcases touchDirs_cases (up := up) s.clock [P.path o] s.fs (change s.fs s.clock (P.path o) (some d)) (P.path o) with h | ⟨m, h, h'⟩
        · rw [h]; simp [change, setFile]
        · rw [h']
          simp only [change, setFile, if_true, Option.some.injEq, Entry.mk.injEq] at h
          simp [h.2]
    · have hc : change s.fs s.clock p d (P.path o) = s.fs (P.path o) := by
        cases d <;> simp [change, setFile, hp]
      rcases touchDirs_cases (up := up) s.clock [p] s.fs (change s.fs s.clock p d) (P.path o) with h | ⟨m, h, h'⟩
      · exact .same (by simp only; rw [h, hc])
      · exact .touched m (by rw [← hc]; exact h) h'
  | ev e =>
    obtain ⟨s1, h1, rfl⟩ := stepW_ev h
    have key : s1.fs (P.path o) = s.fs (P.path o) →
        FileStep B s { s1 with fs := touchDirs up s.clock (news P B.objs e) s.fs s1.fs } o (.ev e) := by
      intro heq
      rcases touchDirs_cases (up := up) s.clock (news P B.objs e) s.fs s1.fs (P.path o) with h | ⟨m, h, h'⟩
      · exact .same (by simp only; rw [h, heq])
      · exact .touched m (by rw [← heq]; exact h) h'
    cases fsStep h1 with
    | same hfs _ => exact key (by rw [hfs])
    | @write i v x hx hrun hkx hw hfs =>
      by_cases hp : P.path o = P.path x
      · have := path_inj hS ho (B.reg hS hroot hx) hp
        subst this
        refine .write hx hrun hkx hw ?_
        exact touchDirs_file (e := ⟨s.clock, some v⟩) (by rw [hfs]; simp [setFile]) (by simp)
      · exact key (by rw [hfs]; simp [setFile, hp])
    | @mkdir w i x hx hkx hnone _ hfs =>
      refine key ?_
      have hn := not_made hS (B.reg hS hroot hx) hkx ho hk
      rw [hfs]
      cases hsp : s.fs (P.path o) with
      | some e => exact makedirs_some hsp
      | none => simp [makedirs, hsp, hn]

theorem stepW_clock {e : WEv α} (h : stepW P up B.need B.objs B.g s e = some s') : s.clock ≤ s'.clock := by
  cases e with
  | other p d => cases h; exact le_refl _
  | ev e =>
    obtain ⟨s1, h1, rfl⟩ := stepW_ev h
    have := step_clock h1
    exact this

theorem stepW_stamps {e : WEv α} (h : stepW P up B.need B.objs B.g s e = some s')
    (h0 : ∀ p x, s.fs p = some x → x.mtime ≤ s.clock) : ∀ p x, s'.fs p = some x → x.mtime ≤ s'.clock := by
  have touch : ∀ (l : List String) (new : FS α) (c : Nat), s.clock ≤ c → (∀ p x, new p = some x → x.mtime ≤ c) →
      ∀ p x, touchDirs up s.clock l s.fs new p = some x → x.mtime ≤ c := by
    intro l new c hc hn p x hx
    rcases touchDirs_cases (up := up) s.clock l s.fs new p with h | ⟨m, h, h'⟩
    · rw [h] at hx; exact hn p x hx
    · rw [h'] at hx; cases hx; exact hc
  cases e with
  | other p d =>
    cases h
    refine touch [p] _ s.clock (le_refl _) ?_
    intro q x hx
    cases d with
    | none =>
      simp only [change] at hx
      split at hx
      · cases hx
      · exact h0 q x hx
    | some d =>
      simp only [change, setFile] at hx
      split at hx
      · cases hx; exact le_refl _
      · exact h0 q x hx
  | ev e =>
    obtain ⟨s1, h1, rfl⟩ := stepW_ev h
    have hc := step_clock h1
    refine touch _ s1.fs s1.clock hc ?_
    intro p x hp
    cases fsStep h1 with
    | same hfs _ => rw [hfs] at hp; exact le_trans (h0 p x hp) hc
    | write _ _ _ _ hfs =>
      rw [hfs] at hp
      simp only [setFile] at hp
      split at hp
      · cases hp; exact hc
      · exact le_trans (h0 p x hp) hc
    | mkdir _ _ _ _ hfs =>
      rw [hfs] at hp
      simp only [makedirs] at hp
      split at hp
      · rename_i y hy; cases hp; exact le_trans (h0 p _ hy) hc
      · split at hp
        · cases hp; exact hc
        · cases hp

end Step

/-! ### a build -/

section Build
variable {root : Nat} {fs0 : FS α} {cache0 : FileCache} {B : Invocation P canon root fs0 cache0} {clock0 : Nat}
  {s : St α} {tr : List (WEv α)}

theorem Honest.prefix {tr' : List (WEv α)} (h : Honest B up clock0 (tr ++ tr')) : Honest B up clock0 tr := by
  intro pre post w i o htr
  exact h pre (post ++ tr') w i o (by rw [htr]; simp)

theorem Quiet.prefix {tr' : List (WEv α)} (h : Quiet B up clock0 (tr ++ tr')) : Quiet B up clock0 tr := by
  intro pre post p d s htr
  exact h pre (post ++ tr') p d s (by rw [htr]; simp)

theorem clockW_le (h : B.RunW up clock0 tr s) : clock0 ≤ s.clock := by
  induction h with
  | nil => exact le_refl _
  | snoc _ hst ih => exact le_trans ih (stepW_clock (B := B) hst)

theorem stampsW (h0 : ∀ p e, fs0 p = some e → e.mtime ≤ clock0) (h : B.RunW up clock0 tr s) :
    ∀ p e, s.fs p = some e → e.mtime ≤ s.clock := by
  induction h with
  | nil => exact h0
  | snoc _ hst ih => exact stepW_stamps (B := B) hst ih

theorem startsW_mono {e : WEv α} {i : Nat} (h : i ∈ Solver.starts (sched (evs tr))) :
    i ∈ Solver.starts (sched (evs (tr ++ [e]))) := by
  rw [evs_append, sched_append, Solver.starts_append]
  exact List.mem_append_left _ h

theorem write_infoW (hS : Sound P canon) (hroot : Registered P.reg root) (h : B.RunW up clock0 tr s) :
    ∀ i v, WEv.ev (.write i v) ∈ tr → i ∈ Solver.starts (sched (evs tr)) ∧
      ∃ o, B.objs[i]? = some o ∧ P.kind o = .file ∧ work P.reg B.need o = .calls := by
  induction h with
  | nil => intro i v h; cases h
  | @snoc tr s e s' hx hst ih =>
    intro i v hm
    rcases List.mem_append.1 hm with hm | hm
    · exact ⟨startsW_mono (ih i v hm).1, (ih i v hm).2⟩
    · rw [List.mem_singleton] at hm; subst hm
      obtain ⟨s1, h1, rfl⟩ := stepW_ev hst
      cases fsStep h1 with
      | same _ hne => exact absurd rfl (hne i v)
      | write ho hrun hk hw _ =>
        exact ⟨startsW_mono (running_startedW (B := B) hS hroot hx hrun), _, ho, hk, hw⟩

/-- an input of a started target is not written any more -/
theorem input_not_running (hS : Sound P canon) (hroot : Registered P.reg root) (h : B.RunW up clock0 tr s) {i j o o' : Nat}
    (hst : i ∈ Solver.starts (sched (evs tr))) (hi : B.objs[i]? = some o) (hin : InputOf P canon o o')
    (hj : B.objs[j]? = some o') : Solver.WS.run j ∉ s.sol.ws := by
  obtain ⟨j', w, hj', hf⟩ := deps_finishedW hS hroot h hst hi hin.trans
  have := B.idx hS hroot hj hj'
  subst this
  exact not_runningW hS hroot h hf

/-- while a command runs its inputs keep their contents -/
theorem inputs_stable (hS : Sound P canon) (hroot : Registered P.reg root) {i o : Nat} (hi : B.objs[i]? = some o)
    {a1 : List (WEv α)} {s1 : St α} (h1 : B.RunW up clock0 a1 s1) (hst : i ∈ Solver.starts (sched (evs a1))) :
    ∀ (a2 : List (WEv α)) (s : St α), B.RunW up clock0 (a1 ++ a2) s → Quiet B up clock0 (a1 ++ a2) →
      (∀ w r, WEv.ev (.sched (.finish w i r)) ∉ a1 ++ a2) → ∀ o', InputOf P canon o o' →
      contents s.fs (P.path o') = contents s1.fs (P.path o') := by
  intro a2
  induction a2 using List.reverseRecOn with
  | nil =>
    intro s h _ _ o' _
    rw [List.append_nil] at h
    rw [RunW.unique h h1]
  | append_singleton a2 e ih =>
    intro s' h hq hn o' hin
    rw [← List.append_assoc] at h hq hn
    obtain ⟨s, hx, hstep⟩ := h.last
    have hx' : B.RunW up clock0 (a1 ++ a2) s := hx
    rw [← ih s hx hq.prefix (fun w r hm => hn w r (by rw [List.mem_append]; exact Or.inl hm)) o' hin]
    have hst' : i ∈ Solver.starts (sched (evs (a1 ++ a2))) := by
      rw [evs_append, sched_append, Solver.starts_append]
      exact List.mem_append_left _ hst
    have hrun : Solver.WS.run i ∈ s.sol.ws :=
      started_runningW hS hroot hx' hst' (fun w r hm => hn w r (by rw [List.mem_append]; exact Or.inl hm))
    unfold contents
    cases fileStep hS hroot hstep hin.registered hin.kind with
    | same h => rw [h]
    | touched m h h' => rw [h, h']; rfl
    | write hj hr _ _ _ => exact absurd hr (input_not_running hS hroot hx' hst' hi hin hj)
    | other h =>
      obtain ⟨h2, h3⟩ := hq _ _ _ _ _ rfl hx'
      rcases hin.kind with hk | hk
      · exact absurd ⟨o', hin.registered, hk, rfl⟩ h2
      · exact absurd hin ((h3 o' hin.registered hk rfl).2 i o hrun hi)

/-- what a command wrote last stays -/
theorem own_stable (hS : Sound P canon) (hroot : Registered P.reg root) {i o : Nat} (hi : B.objs[i]? = some o) (hk : P.kind o = .file)
    {a : List (WEv α)} {v : α} : ∀ (c : List (WEv α)) (s : St α), B.RunW up clock0 (a ++ .ev (.write i v) :: c) s →
      Quiet B up clock0 (a ++ .ev (.write i v) :: c) → (∀ v', WEv.ev (.write i v') ∉ c) →
      ∃ m, s.fs (P.path o) = some ⟨m, some v⟩ := by
  have ho := B.reg hS hroot hi
  intro c
  induction c using List.reverseRecOn with
  | nil =>
    intro s' h _ _
    obtain ⟨s, hx, hst⟩ := h.last
    obtain ⟨s1, h1, rfl⟩ := stepW_ev hst
    cases fsStep h1 with
    | same _ hne => exact absurd rfl (hne i v)
    | write hx' _ _ _ hfs =>
      rw [hi] at hx'; cases hx'
      exact ⟨s.clock, touchDirs_file (e := ⟨s.clock, some v⟩) (by rw [hfs]; simp [setFile]) (by simp)⟩
  | append_singleton c e ih =>
    intro s' h hq hn
    have e1 : a ++ WEv.ev (.write i v) :: (c ++ [e]) = (a ++ WEv.ev (.write i v) :: c) ++ [e] := by simp
    rw [e1] at h hq
    obtain ⟨s, hx, hst⟩ := h.last
    have hx' : B.RunW up clock0 (a ++ .ev (.write i v) :: c) s := hx
    obtain ⟨m, hm⟩ := ih s hx hq.prefix (fun v' hv => hn v' (by simp [hv]))
    cases fileStep hS hroot hst ho (Or.inl hk) with
    | same h => exact ⟨m, by rw [h, hm]⟩
    | touched m' h _ => rw [hm] at h; cases h
    | @write j v' hj _ _ _ _ =>
      have := B.idx hS hroot hj hi
      subst this
      exact absurd (by simp) (hn v')
    | other _ => exact absurd ⟨o, ho, hk, rfl⟩ (hq _ _ _ _ _ rfl hx').1

/-- a source that the target depends on has been changed since and is newer, or missing -/
def Behind (P : Proj α) (canon : String → String) (fs : FS α) (o : Nat) : Prop :=
  ∃ o', InputOf P canon o o' ∧ P.kind o' = .source ∧
    ∀ e e', fs (P.path o) = some e → fs (P.path o') = some e' → e.mtime < e'.mtime

/-- somebody changed an input of the target during the build -/
def Disturbed (P : Proj α) (canon : String → String) (tr : List (WEv α)) (o : Nat) : Prop :=
  ∃ o' d, InputOf P canon o o' ∧ WEv.other (P.path o') d ∈ tr

/-- What is known about the file targets during a build: `fs0` are the files at its beginning, all older. -/
structure InvW (B : Invocation P canon root fs0 cache0) (D : Nat → Prop) (tr : List (WEv α)) (s : St α) : Prop where
  plain : ProductsPlain P s.fs
  kept : ∀ o, Registered P.reg o → P.kind o = .file → ¬ WrittenW B tr o → s.fs (P.path o) = fs0 (P.path o)
  sure : ∀ o, Registered P.reg o → P.kind o = .file → ¬ WrittenW B tr o → ¬ D o → Sure P canon s.fs o
  built : ∀ o, Registered P.reg o → P.kind o = .file → work P.reg B.need o = .calls → DoneW B tr o →
    WrittenW B tr o ∧ (Right P s.fs o ∨ (Disturbed P canon tr o ∧ Behind P canon s.fs o))

theorem invW (hS : Sound P canon) (hF : Functional P canon) (hroot : Registered P.reg root) {D : Nat → Prop}
    (hold : ∀ p e, fs0 p = some e → e.mtime < clock0) (hplain : ProductsPlain P fs0)
    (hsure : ∀ o, Registered P.reg o → P.kind o = .file → ¬ D o → Sure P canon fs0 o)
    (h : B.RunW up clock0 tr s) (hh : Honest B up clock0 tr) (hq : Quiet B up clock0 tr) : InvW B D tr s := by
  induction h with
  | nil =>
    refine ⟨hplain, fun _ _ _ _ => rfl, fun o ho hk _ hD => hsure o ho hk hD, ?_⟩
    rintro o _ _ _ ⟨w, i, hm, _⟩
    cases hm
  | @snoc tr s e s' hx hst ih =>
    have hx0 : B.RunW up clock0 tr s := hx
    have I := ih hh.prefix hq.prefix
    have hstamps := stampsW (fun p e he => le_of_lt (hold p e he)) hx0
    have hclk := clockW_le hx0
    have quiet : ∀ p d, e = .other p d → ¬ IsProduct P p ∧ ∀ x, Registered P.reg x → P.kind x = .source → P.path x = p →
        (∀ q e, s.fs q = some e → e.mtime < s.clock) ∧
        ∀ i o, Solver.WS.run i ∈ s.sol.ws → B.objs[i]? = some o → ¬ InputOf P canon o x := by
      rintro p d rfl
      exact hq tr [] p d s rfl hx0
    -- a file target: unchanged or written
    have own : ∀ o, Registered P.reg o → P.kind o = .file → s'.fs (P.path o) = s.fs (P.path o) ∨
        ∃ i v, e = .ev (.write i v) ∧ B.objs[i]? = some o ∧ Solver.WS.run i ∈ s.sol.ws ∧
          s'.fs (P.path o) = some ⟨s.clock, some v⟩ := by
      intro o ho hk
      cases fileStep hS hroot hst ho (Or.inl hk) with
      | same h => exact Or.inl h
      | touched m h _ => exact absurd rfl (I.plain o ho hk _ h)
      | @write i v hi hr _ _ hf => exact Or.inr ⟨i, v, rfl, hi, hr, hf⟩
      | other _ => exact absurd ⟨o, ho, hk, rfl⟩ (quiet _ _ rfl).1
    have wmono : ∀ o, WrittenW B tr o → WrittenW B (tr ++ [e]) o := by
      rintro o ⟨i, v, hm, hi⟩
      exact ⟨i, v, by simp [hm], hi⟩
    have keep : ∀ o, Registered P.reg o → P.kind o = .file → ¬ WrittenW B (tr ++ [e]) o →
        s'.fs (P.path o) = s.fs (P.path o) := by
      intro o ho hk hw
      rcases own o ho hk with h | ⟨i, v, rfl, hi, _⟩
      · exact h
      · exact absurd ⟨i, v, by simp, hi⟩ hw
    refine ⟨?_, ?_, ?_, ?_⟩
    · intro o ho hk x hxe
      rcases own o ho hk with h | ⟨i, v, _, _, _, h⟩
      · rw [h] at hxe; exact I.plain o ho hk x hxe
      · rw [h] at hxe; cases hxe; simp
    · intro o ho hk hw
      rw [keep o ho hk hw]
      exact I.kept o ho hk (fun h => hw (wmono o h))
    · intro o ho hk hw hD x hxe hprem
      have hw0 : ¬ WrittenW B tr o := fun h => hw (wmono o h)
      rw [keep o ho hk hw] at hxe
      have hxold : x.mtime < clock0 := by
        have := I.kept o ho hk hw0
        rw [this] at hxe
        exact hold _ _ hxe
      have hin : ∀ o', InputOf P canon o o' → (∃ e', s.fs (P.path o') = some e' ∧ e'.mtime ≤ x.mtime) ∧
          contents s'.fs (P.path o') = contents s.fs (P.path o') := by
        intro o' hio
        obtain ⟨e', h1, h2⟩ := hprem o' hio
        cases fileStep hS hroot hst hio.registered hio.kind with
        | same h => exact ⟨⟨e', by rw [← h]; exact h1, h2⟩, by unfold contents; rw [h]⟩
        | touched m h h' =>
          rw [h'] at h1; cases h1
          exact ⟨⟨_, h, le_trans (hstamps _ _ h) h2⟩, by unfold contents; rw [h, h']; rfl⟩
        | write _ _ _ _ h =>
          rw [h] at h1; cases h1
          simp only at h2
          omega
        | @other d h =>
          rcases hio.kind with hk' | hk'
          · exact absurd ⟨o', hio.registered, hk', rfl⟩ (quiet _ _ rfl).1
          · have := ((quiet _ _ rfl).2 o' hio.registered hk' rfl).1 _ _ hxe
            rw [h] at h1
            cases d with
            | none => cases h1
            | some d => cases h1; simp only at h2; omega
      have := I.sure o ho hk hw0 hD x hxe (fun o' hio => (hin o' hio).1)
      unfold Right at this ⊢
      rw [hF o (contents s'.fs) (contents s.fs) (fun o' hio => (hin o' hio).2), ← this]
      unfold contents
      rw [keep o ho hk hw]
    · intro o ho hk hcalls hdone
      by_cases hd0 : DoneW B tr o
      · -- it had ended before
        obtain ⟨hw, hR⟩ := I.built o ho hk hcalls hd0
        refine ⟨wmono o hw, ?_⟩
        obtain ⟨w, i, hf, hi⟩ := hd0
        have hst0 := finished_startedW hS hroot hx0 hf
        have hown : s'.fs (P.path o) = s.fs (P.path o) := by
          rcases own o ho hk with h | ⟨j, v, _, hj, hr, _⟩
          · exact h
          · have := B.idx hS hroot hj hi
            subst this
            exact absurd hr (not_runningW hS hroot hx0 hf)
        have hin : ∀ o', InputOf P canon o o' → contents s'.fs (P.path o') = contents s.fs (P.path o') ∨
            (P.kind o' = .source ∧ (∃ d, e = .other (P.path o') d)) := by
          intro o' hio
          unfold contents
          cases fileStep hS hroot hst hio.registered hio.kind with
          | same h => exact Or.inl (by rw [h])
          | touched m h h' => exact Or.inl (by rw [h, h']; rfl)
          | write hj hr _ _ _ => exact absurd hr (input_not_running hS hroot hx0 hst0 hi hio hj)
          | @other d h =>
            rcases hio.kind with hk' | hk'
            · exact absurd ⟨o', hio.registered, hk', rfl⟩ (quiet _ _ rfl).1
            · exact Or.inr ⟨hk', d, rfl⟩
        have late : ∀ o', InputOf P canon o o' → P.kind o' = .source → (∃ d, e = .other (P.path o') d) →
            ∀ x x', s'.fs (P.path o) = some x → s'.fs (P.path o') = some x' → x.mtime < x'.mtime := by
          rintro o' hio hk' ⟨d, rfl⟩ x x' hx1 hx2
          rw [hown] at hx1
          have h1 := ((quiet _ _ rfl).2 o' hio.registered hk' rfl).1 _ _ hx1
          cases fileStep hS hroot hst hio.registered hio.kind with
          | same h =>
            have h3 : s'.fs (P.path o') = d.map (fun y => ⟨s.clock, y⟩) := by
              cases hst
              simp only
              cases d with
              | none => exact touchDirs_none (by simp [change])
              | some d =>
                rcases touchDirs_cases (up := up) s.clock [P.path o'] s.fs (change s.fs s.clock (P.path o') (some d)) (P.path o')
                  with h | ⟨m, h, h'⟩
                · rw [h]; simp [change, setFile]
                · rw [h']
                  simp only [change, setFile, if_true, Option.some.injEq, Entry.mk.injEq] at h
                  simp [h.2]
            rw [h3] at hx2
            cases d with
            | none => cases hx2
            | some d => cases hx2; exact h1
          | touched m _ h => rw [h] at hx2; cases hx2; exact h1
          | other h =>
            rw [h] at hx2
            cases d with
            | none => cases hx2
            | some d => cases hx2; exact h1
        by_cases hnow : ∃ o', InputOf P canon o o' ∧ P.kind o' = .source ∧ ∃ d, e = .other (P.path o') d
        · obtain ⟨o', hio, hk', d, hd⟩ := hnow
          exact Or.inr ⟨⟨o', d, hio, by simp [hd]⟩, o', hio, hk', late o' hio hk' ⟨d, hd⟩⟩
        · have hsame : ∀ o', InputOf P canon o o' → contents s'.fs (P.path o') = contents s.fs (P.path o') := by
            intro o' hio
            rcases hin o' hio with h | ⟨h1, h2⟩
            · exact h
            · exact absurd ⟨o', hio, h1, h2⟩ hnow
          rcases hR with hR | ⟨⟨o1, d, h1, h2⟩, o', hio, hk', hb⟩
          · left
            unfold Right at hR ⊢
            rw [hF o (contents s'.fs) (contents s.fs) hsame, ← hR]
            unfold contents
            rw [hown]
          · right
            refine ⟨⟨o1, d, h1, by simp [h2]⟩, o', hio, hk', ?_⟩
            intro x x' hx1 hx2
            rw [hown] at hx1
            cases fileStep hS hroot hst hio.registered hio.kind with
            | same h => rw [h] at hx2; exact hb x x' hx1 hx2
            | touched m h h' =>
              rw [h'] at hx2; cases hx2
              exact lt_of_lt_of_le (hb x _ hx1 h) (hstamps _ _ h)
            | write _ _ hkf _ _ => rw [hk'] at hkf; cases hkf
            | @other d' h => exact absurd ⟨o', hio, hk', d', rfl⟩ hnow
      · -- it ends now
        obtain ⟨w, i, hm, hi⟩ := hdone
        have hm' : e = .ev (.sched (.finish w i .ok)) := by
          rcases List.mem_append.1 hm with hm | hm
          · exact absurd ⟨w, i, hm, hi⟩ hd0
          · exact (List.mem_singleton.1 hm).symm
        subst hm'
        obtain ⟨a, c, v, f, hpre, hlast, hv, hreads⟩ := hh tr [] w i o rfl hi hk hcalls
        have hrun : Solver.WS.run i ∈ s.sol.ws := by
          obtain ⟨s1, h1, _⟩ := stepW_ev hst
          rcases step_sol h1 with ⟨x, hx', hsol⟩ | ⟨hne, _⟩
          · cases hx'
            simp only [Solver.step] at hsol
            split at hsol
            · rename_i hc; exact List.mem_of_getElem? hc.1
            · cases hsol
          · exact absurd rfl (hne _)
        have hnofin : ∀ w r, WEv.ev (.sched (.finish w i r)) ∉ tr := fun w r hf => not_runningW hS hroot hx0 hf hrun
        refine ⟨⟨i, v, by rw [hpre]; simp, hi⟩, Or.inl ?_⟩
        have hq0 : Quiet B up clock0 tr := hq.prefix
        obtain ⟨m, hval⟩ := own_stable hS hroot hi hk c s (by rw [← hpre]; exact hx0) (by rw [← hpre]; exact hq0) hlast
        have hown : s'.fs (P.path o) = s.fs (P.path o) := by
          rcases own o ho hk with h | ⟨j, v, hc, _⟩
          · exact h
          · cases hc
        have hcont : contents s'.fs (P.path o) = some v := by
          unfold contents
          rw [hown, hval]
          rfl
        unfold Right
        rw [hcont, hv]
        congr 1
        refine hF o _ _ ?_
        intro o' hio
        obtain ⟨a1, a2, s1, ha, ⟨w', hstart⟩, hrun1, hfr⟩ := hreads o' hio
        have hsplit : tr = a1 ++ (a2 ++ WEv.ev (.write i v) :: c) := by rw [hpre, ha]; simp
        have hst1 : i ∈ Solver.starts (sched (evs a1)) := by
          rw [Solver.mem_starts]
          exact ⟨w', mem_schedW.2 hstart⟩
        have := inputs_stable hS hroot hi hrun1 hst1 (a2 ++ WEv.ev (.write i v) :: c) s (by rw [← hsplit]; exact hx0)
          (by rw [← hsplit]; exact hq0) (by rw [← hsplit]; exact hnofin) o' hio
        rw [hfr, ← this]
        unfold contents
        cases fileStep hS hroot hst hio.registered hio.kind with
        | same h => rw [h]
        | touched m h h' => rw [h, h']; rfl

end Build

/-! ### histories -/

theorem HistoryW.old {fs : FS α} {t : Nat} {D : Nat → Prop} (h : HistoryW P canon up fs t D) :
    ∀ p e, fs p = some e → e.mtime ≤ t := by
  induction h with
  | checkout h _ => exact h
  | @change fs t D p d _ _ ih =>
    intro q e he
    rcases touchDirs_cases (up := up) (t + 1) [p] fs (Make.change fs (t + 1) p d) q with h | ⟨m, _, h⟩
    · rw [h] at he
      cases d with
      | none =>
        simp only [Make.change] at he
        split at he
        · cases he
        · exact le_trans (ih q e he) (Nat.le_succ _)
      | some d =>
        simp only [Make.change, setFile] at he
        split at he
        · cases he; exact le_refl _
        · exact le_trans (ih q e he) (Nat.le_succ _)
    · rw [h] at he; cases he; exact le_refl _
  | wait _ ih => exact fun p e he => le_trans (ih p e he) (Nat.le_succ _)
  | build B _ _ hx _ _ ih => exact stampsW (fun p e he => le_trans (ih p e he) (Nat.le_succ _)) hx

/-- after any history, a trusted built file whose inputs exist and are not newer is right -/
theorem HistoryW.sure (hS : Sound P canon) (hF : Functional P canon) {fs : FS α} {t : Nat} {D : Nat → Prop}
    (h : HistoryW P canon up fs t D) :
    ProductsPlain P fs ∧ ∀ o, Registered P.reg o → P.kind o = .file → ¬ D o → Sure P canon fs o := by
  induction h with
  | checkout _ h =>
    refine ⟨fun o ho hk e he => ?_, fun o ho hk _ e he => ?_⟩ <;>
    · rw [h o ho hk] at he; cases he
  | @change fs t D p d h hp ih =>
    obtain ⟨ih1, ih2⟩ := ih
    have hfile : ∀ o, Registered P.reg o → P.kind o = .file → ∀ e,
        touchDirs up (t + 1) [p] fs (Make.change fs (t + 1) p d) (P.path o) = some e → P.path o ≠ p ∧ fs (P.path o) = some e := by
      intro o ho hk e he
      have hne : P.path o ≠ p := by
        rintro rfl
        cases d with
        | none => rw [touchDirs_none (by simp [Make.change])] at he; cases he
        | some d => exact hp (by simp) ⟨o, ho, hk, rfl⟩
      have hc : Make.change fs (t + 1) p d (P.path o) = fs (P.path o) := by cases d <;> simp [Make.change, setFile, hne]
      refine ⟨hne, ?_⟩
      rcases touchDirs_cases (up := up) (t + 1) [p] fs (Make.change fs (t + 1) p d) (P.path o) with h1 | ⟨m, h1, _⟩
      · rw [h1, hc] at he; exact he
      · rw [hc] at h1; exact absurd rfl (ih1 o ho hk _ h1)
    refine ⟨fun o ho hk e he => ih1 o ho hk e (hfile o ho hk e he).2, ?_⟩
    intro o ho hk hD e he hprem
    obtain ⟨hne, he0⟩ := hfile o ho hk e he
    have hD0 : ¬ D o := fun hd => hD ⟨hd, hne⟩
    have hold := h.old _ _ he0
    have hin : ∀ o', InputOf P canon o o' → (∃ e', fs (P.path o') = some e' ∧ e'.mtime ≤ e.mtime) ∧
        contents (touchDirs up (t + 1) [p] fs (Make.change fs (t + 1) p d)) (P.path o') = contents fs (P.path o') := by
      intro o' hio
      obtain ⟨e', h1, h2⟩ := hprem o' hio
      rcases touchDirs_cases (up := up) (t + 1) [p] fs (Make.change fs (t + 1) p d) (P.path o') with h3 | ⟨m, _, h3⟩
      · rw [h3] at h1
        have hne' : P.path o' ≠ p := by
          rintro rfl
          cases d with
          | none => simp [Make.change] at h1
          | some d =>
            simp only [Make.change, setFile, if_true, Option.some.injEq] at h1
            subst h1
            simp only at h2
            omega
        have hc : Make.change fs (t + 1) p d (P.path o') = fs (P.path o') := by cases d <;> simp [Make.change, setFile, hne']
        rw [hc] at h1 h3
        exact ⟨⟨e', h1, h2⟩, by unfold contents; rw [h3]⟩
      · rw [h3] at h1; cases h1
        simp only at h2
        omega
    have := ih2 o ho hk hD0 e he0 (fun o' hio => (hin o' hio).1)
    unfold Right at this ⊢
    rw [hF o _ (contents fs) (fun o' hio => (hin o' hio).2), ← this]
    unfold contents
    rw [he, he0]
  | wait _ ih => exact ih
  | @build fs t D root cache tr s B h hroot hx hh hq ih =>
    have I := invW hS hF hroot (fun p e he => Nat.lt_succ_of_le (h.old p e he)) ih.1 ih.2 hx hh hq
    refine ⟨I.plain, ?_⟩
    intro o ho hk hD
    by_cases hw : WrittenW B tr o
    · have hd : DoneW B tr o := by
        by_contra hd
        exact hD (Or.inl ⟨hw, hd⟩)
      have hcalls : work P.reg B.need o = .calls := by
        obtain ⟨i, v, hm, hi⟩ := hw
        obtain ⟨_, o', h1, _, h2⟩ := write_infoW hS hroot hx i v hm
        rw [hi] at h1; cases h1
        exact h2
      intro e he hprem
      rcases (I.built o ho hk hcalls hd).2 with h1 | ⟨_, o', hio, _, hb⟩
      · exact h1
      · obtain ⟨e', h2, h3⟩ := hprem o' hio
        exact absurd (hb e e' he h2) (by omega)
    · exact I.sure o ho hk hw (fun hd => hD (Or.inr ⟨hw, hd⟩))

/-! ### C132 and C133 -/

section Final
variable {root : Nat} {fs : FS α} {t : Nat} {cache : FileCache} {B : Invocation P canon root fs cache} {s : St α} {tr : List (WEv α)}

theorem Tidy.quiet (h : Tidy P tr) : Quiet B up t tr := by
  intro pre post p d s htr _
  have hp := h p d (by rw [htr]; simp)
  refine ⟨?_, fun x hx hk hpx => absurd hpx (hp x hx (Or.inr (Or.inl hk)))⟩
  rintro ⟨o, ho, hk, hpo⟩
  exact hp o ho (Or.inl hk) hpo

theorem finishedW (hS : Sound P canon) (hroot : Registered P.reg root) (h : B.RunW up t tr s) (hs : s.Succeeded) {o : Nat}
    (ho : Closure canon P.reg root o) : DoneW B tr o ∧ ∃ w i, WEv.ev (.sched (.start w i)) ∈ tr ∧ B.objs[i]? = some o := by
  obtain ⟨i, hi⟩ := B.index hS hroot ho
  obtain ⟨Pr, order, lim, hor, hg⟩ := B.prep hS hroot
  obtain ⟨hall, _⟩ := Solver.C03_true_means_all_done hor hg h.exec hs.1 hs.2
  obtain ⟨⟨w', h1⟩, w, h2⟩ := hall i (by rw [Pr.len]; exact (List.getElem?_eq_some_iff.1 hi).1)
  exact ⟨⟨w, i, mem_schedW.1 h2, hi⟩, w', i, mem_schedW.1 h1, hi⟩

/-- in a tidy build sources keep their contents -/
theorem sources_kept (hS : Sound P canon) (hroot : Registered P.reg root) (h : B.RunW up t tr s) (ht : Tidy P tr) {o : Nat}
    (ho : Registered P.reg o) (hk : P.kind o = .source) : contents s.fs (P.path o) = contents fs (P.path o) := by
  induction h with
  | nil => rfl
  | @snoc tr s e s' hx hst ih =>
    rw [← ih (fun p d hm => ht p d (by simp [hm]))]
    unfold contents
    cases fileStep hS hroot hst ho (Or.inr hk) with
    | same h => rw [h]
    | touched m h h' => rw [h, h']; rfl
    | write _ _ hkf _ _ => rw [hk] at hkf; cases hkf
    | @other d _ => exact absurd rfl (ht _ d (by simp) o ho (Or.inr (Or.inl hk)))

theorem built_contentsW (hS : Sound P canon) (hF : Functional P canon) {D : Nat → Prop} (hH : HistoryW P canon up fs t D)
    (hroot : Registered P.reg root) (hk : P.kind root ≠ .other)
    (hD : ∀ o, Closure canon P.reg root o → P.kind o = .file → ¬ D o)
    (hacc : Accurate P fs cache) (hx : B.RunW up (t + 1) tr s) (ht : Tidy P tr) (hh : Honest B up (t + 1) tr) (hs : s.Succeeded)
    {o : Nat} (ho : Closure canon P.reg root o) (hko : P.kind o = .file) : Right P s.fs o := by
  have hreg := closure_registered hroot ho
  obtain ⟨hpl, hsure⟩ := hH.sure hS hF
  have I := invW hS hF hroot (fun p e he => Nat.lt_succ_of_le (hH.old p e he)) hpl hsure hx hh ht.quiet
  by_cases hnw : NeedsWork P canon (view fs cache) o
  · have hw := (need_closure hS hroot hk B ho).1.2 hnw
    rcases (I.built o hreg hko hw (finishedW hS hroot hx hs ho).1).2 with h | ⟨⟨o', d, h1, h2⟩, _⟩
    · exact h
    · exact absurd rfl (ht _ d h2 o' h1.registered (by rcases h1.kind with h | h <;> simp [IsPath, h]))
  · have nowrite : ∀ x, Closure canon P.reg o x → ¬ WrittenW B tr x := by
      rintro x hox ⟨j, v, hm, hj⟩
      obtain ⟨_, x', h1, _, h3⟩ := write_infoW hS hroot hx j v hm
      rw [hj] at h1; cases h1
      have hclx := ReflTransGen.trans ho hox
      exact hnw (((need_closure hS hroot hk B hclx).1.1 h3).mono hox)
    rw [needsWork_congr hreg hacc] at hnw
    have hood : ∀ x, Closure canon P.reg o x → P.kind x = .file ∨ P.kind x = .source →
        (fileinfo fs (P.path x)).exist = true ∧ ∀ o', InputOf P canon x o' →
          (fileinfo fs (P.path o')).mtime ≤ (fileinfo fs (P.path x)).mtime := by
      intro x hox hkx
      have h : ¬ OutOfDate P canon (fileinfo fs) x := fun h => hnw ⟨x, hox, h⟩
      unfold OutOfDate at h
      rcases hkx with hkx | hkx <;> rw [hkx] at h <;>
      · simp only [not_or, not_exists, not_and, Bool.not_eq_true, Bool.not_eq_false, gt_iff_lt, not_lt] at h
        exact h.2
    obtain ⟨hex, hin⟩ := hood o .refl (Or.inl hko)
    rw [fileinfo_exist] at hex
    obtain ⟨e, he⟩ := Option.isSome_iff_exists.1 hex
    have := hsure o hreg hko (hD o ho hko) e he (by
      intro o' hio
      have hex' := (hood o' hio.closure hio.kind).1
      rw [fileinfo_exist] at hex'
      obtain ⟨e', he'⟩ := Option.isSome_iff_exists.1 hex'
      have := hin o' hio
      simp only [fileinfo, he, he'] at this
      exact ⟨e', he', this⟩)
    have hcont : ∀ o', InputOf P canon o o' → contents s.fs (P.path o') = contents fs (P.path o') := by
      intro o' hio
      rcases hio.kind with h | h
      · unfold contents
        rw [I.kept o' hio.registered h (nowrite o' hio.closure)]
      · exact sources_kept hS hroot hx ht hio.registered h
    unfold Right at this ⊢
    rw [hF o (contents s.fs) (contents fs) hcont, ← this]
    unfold contents
    rw [I.kept o hreg hko (nowrite o .refl)]

/-- C132, the part that holds: sources may be edited while builds run, as long as no command that reads them is running.
After any history of such builds (which may also be killed, and in which commands write bit by bit, read their inputs when
they like and leave other files behind), a successful build gives every file target of the closure the contents that a
build from scratch of the same sources gives, and these are what its command makes of the present files.  `D` are the
files that failed or killed commands have left behind: there must be none among the targets of the build. -/
theorem C132_partial (hS : Sound P canon) (hF : Functional P canon) (hroot : Registered P.reg root) (hk : P.kind root ≠ .other)
    {D : Nat → Prop} (hH : HistoryW P canon up fs t D) (hD : ∀ o, Closure canon P.reg root o → P.kind o = .file → ¬ D o)
    {fs1 : FS α} {t1 : Nat} (h1 : ∀ p e, fs1 p = some e → e.mtime ≤ t1) (h1' : Pristine P fs1)
    (hsrc : ∀ o, Closure canon P.reg root o → P.kind o = .source → contents fs1 (P.path o) = contents fs (P.path o))
    {cache1 : FileCache} (hacc : Accurate P fs cache) (hacc1 : Accurate P fs1 cache1)
    {B1 : Invocation P canon root fs1 cache1} {tr1 : List (WEv α)} {s1 : St α}
    (hx : B.RunW up (t + 1) tr s) (ht : Tidy P tr) (hh : Honest B up (t + 1) tr) (hs : s.Succeeded)
    (hx1 : B1.RunW up (t1 + 1) tr1 s1) (ht1 : Tidy P tr1) (hh1 : Honest B1 up (t1 + 1) tr1) (hs1 : s1.Succeeded)
    {o : Nat} (ho : Closure canon P.reg root o) (hko : P.kind o = .file) :
    contents s.fs (P.path o) = contents s1.fs (P.path o) ∧ contents s.fs (P.path o) = some (P.cmd o (contents s.fs)) := by
  have hc := fun o ho hko => built_contentsW hS hF hH hroot hk hD hacc hx ht hh hs (o := o) ho hko
  have hc1 := fun o ho hko => built_contentsW hS hF (HistoryW.checkout (canon := canon) (up := up) h1 h1') hroot hk
    (fun _ _ _ h => h) hacc1 hx1 ht1 hh1 hs1 (o := o) ho hko
  refine ⟨contents_unique hS hF hc hc1 ?_ hroot o ho hko, hc o ho hko⟩
  intro o' ho' hk'
  have hr' := closure_registered hroot ho'
  rw [sources_kept hS hroot hx ht hr' hk', sources_kept hS hroot hx1 ht1 hr' hk', hsrc o' ho' hk']

/-- the paths of the list are removed one after the other -/
def removeAll (up : String → String) : Nat → FS α → List String → FS α
  | _, fs, [] => fs
  | t, fs, p :: l => removeAll up (t + 1) (touchDirs up (t + 1) [p] fs (change fs (t + 1) p none)) l

theorem HistoryW.removeAll {fs : FS α} {t : Nat} {D : Nat → Prop} (h : HistoryW P canon up fs t D) (l : List String) :
    ∃ D', HistoryW P canon up (Make.removeAll up t fs l) (t + l.length) D' ∧ ∀ o, D' o → D o ∧ P.path o ∉ l := by
  induction l generalizing fs t D with
  | nil => exact ⟨D, h, fun o ho => ⟨ho, by simp⟩⟩
  | cons p l ih =>
    obtain ⟨D', h1, h2⟩ := ih (h.change p none (fun h => absurd rfl h))
    refine ⟨D', ?_, ?_⟩
    · rw [List.length_cons, show t + (l.length + 1) = t + 1 + l.length by omega]
      exact h1
    · intro o ho
      obtain ⟨⟨h3, h4⟩, h5⟩ := h2 o ho
      exact ⟨h3, by simp [h4, h5]⟩

/-- C133, the part that holds: a build of any target is killed at any moment, also in the middle of its commands.  If the
files that the unfinished commands had begun to write are removed (other files may be removed as well), the next
successful build gives every file target of the closure the contents that a build from scratch of the same sources gives,
and these are what its command makes of the present files. -/
theorem C133_partial (hS : Sound P canon) (hF : Functional P canon) (hroot : Registered P.reg root) (hk : P.kind root ≠ .other)
    {fs0 : FS α} {t0 : Nat} {D : Nat → Prop} (hH : HistoryW P canon up fs0 t0 D)
    (hD : ∀ o, Closure canon P.reg root o → P.kind o = .file → ¬ D o)
    {root0 : Nat} (hroot0 : Registered P.reg root0) {cache0 : FileCache} {B0 : Invocation P canon root0 fs0 cache0}
    {tr0 : List (WEv α)} {s0 : St α} (hx0 : B0.RunW up (t0 + 1) tr0 s0) (hh0 : Honest B0 up (t0 + 1) tr0)
    (hq0 : Quiet B0 up (t0 + 1) tr0) {l : List String}
    (hl : ∀ o, Closure canon P.reg root o → WrittenW B0 tr0 o → ¬ DoneW B0 tr0 o → P.path o ∈ l)
    (hfs : fs = removeAll up s0.clock s0.fs l)
    {fs1 : FS α} {t1 : Nat} (h1 : ∀ p e, fs1 p = some e → e.mtime ≤ t1) (h1' : Pristine P fs1)
    (hsrc : ∀ o, Closure canon P.reg root o → P.kind o = .source → contents fs1 (P.path o) = contents fs (P.path o))
    {cache1 : FileCache} (hacc : Accurate P fs cache) (hacc1 : Accurate P fs1 cache1)
    {B1 : Invocation P canon root fs1 cache1} {tr1 : List (WEv α)} {s1 : St α}
    (hx : B.RunW up (s0.clock + l.length + 1) tr s) (ht : Tidy P tr) (hh : Honest B up (s0.clock + l.length + 1) tr)
    (hs : s.Succeeded)
    (hx1 : B1.RunW up (t1 + 1) tr1 s1) (ht1 : Tidy P tr1) (hh1 : Honest B1 up (t1 + 1) tr1) (hs1 : s1.Succeeded)
    {o : Nat} (ho : Closure canon P.reg root o) (hko : P.kind o = .file) :
    contents s.fs (P.path o) = contents s1.fs (P.path o) ∧ contents s.fs (P.path o) = some (P.cmd o (contents s.fs)) := by
  subst hfs
  obtain ⟨D', hH', hD'⟩ := (hH.build B0 hroot0 hx0 hh0 hq0).removeAll l
  refine C132_partial hS hF hroot hk hH' ?_ h1 h1' hsrc hacc hacc1 hx ht hh hs hx1 ht1 hh1 hs1 ho hko
  intro x hx hkx hdx
  obtain ⟨h2, h3⟩ := hD' x hdx
  rcases h2 with ⟨h4, h5⟩ | ⟨_, h4⟩
  · exact h3 (hl x hx h4 h5)
  · exact hD x hx hkx h4

end Final

/-! ### tools for concrete builds -/

section Tools
variable {root : Nat} {fs : FS α} {cache : FileCache}

theorem split_at {β : Type} {tr pre post : List β} {x : β} (h : tr = pre ++ x :: post) :
    ∃ k, k < tr.length ∧ tr[k]? = some x ∧ pre = tr.take k := by
  subst h
  exact ⟨pre.length, by simp, by simp, by simp⟩

/-- a check that implies `Honest` -/
def honestB [DecidableEq α] (B : Invocation P canon root fs cache) (up : String → String) (clock : Nat) (tr : List (WEv α)) : Bool :=
  (List.range tr.length).all fun k =>
    match tr[k]? with
    | some (.ev (.sched (.finish _ i .ok))) =>
      match B.objs[i]? with
      | some o => !(decide (P.kind o = .file ∧ work P.reg B.need o = .calls)) || (List.range k).any fun k2 =>
          match tr[k2]? with
          | some (.ev (.write j v)) => decide (j = i) &&
            ((tr.take k).drop (k2 + 1)).all (fun | .ev (.write j _) => decide (j ≠ i) | _ => true) &&
            (List.range (k2 + 1)).any fun k1 =>
              (tr.take k1).any (fun | .ev (.sched (.start _ j)) => decide (j = i) | _ => false) &&
              match runW P up B.need B.objs B.g (B.start clock) (tr.take k1) with
              | some s1 => decide (v = P.cmd o (contents s1.fs))
              | none => false
          | _ => false
      | none => true
    | _ => true

theorem honest_of [DecidableEq α] {B : Invocation P canon root fs cache} {clock : Nat} {tr : List (WEv α)}
    (h : honestB B up clock tr = true) : Honest B up clock tr := by
  intro pre post w i o htr hi hk hc
  obtain ⟨k, hkl, hk1, hpre⟩ := split_at htr
  unfold honestB at h
  rw [List.all_eq_true] at h
  have h1 := h k (by simpa using hkl)
  rw [hk1] at h1
  simp only [hi, hk, hc, and_self, decide_true, Bool.not_true, Bool.false_or, List.any_eq_true, List.mem_range] at h1
  obtain ⟨k2, hk2, h2⟩ := h1
  split at h2
  · rename_i j v hjv
    simp only [Bool.and_eq_true, decide_eq_true_eq, List.any_eq_true, List.mem_range, List.all_eq_true] at h2
    obtain ⟨⟨rfl, hno⟩, k1, hk1', ⟨x, hx, hx'⟩, h3⟩ := h2
    split at h3
    · rename_i s1 hs1
      rw [decide_eq_true_eq] at h3
      have e1 : tr.take k = tr.take k2 ++ .ev (.write j v) :: (tr.take k).drop (k2 + 1) := by
        have h4 : (tr.take k)[k2]? = some (.ev (.write j v)) := by
          rw [List.getElem?_take_of_lt hk2]; exact hjv
        have h5 : k2 < (tr.take k).length := (List.getElem?_eq_some_iff.1 h4).1
        have h6 : (tr.take k)[k2] = .ev (.write j v) := (List.getElem?_eq_some_iff.1 h4).2
        have h7 := List.take_append_drop k2 (tr.take k)
        rw [List.drop_eq_getElem_cons h5, h6, List.take_take, min_eq_left (le_of_lt hk2)] at h7
        exact h7.symm
      refine ⟨tr.take k2, (tr.take k).drop (k2 + 1), v, contents s1.fs, ?_, ?_, h3, ?_⟩
      · rw [hpre]; exact e1
      · intro v' hm
        have := hno _ hm
        simp at this
      · intro o' _
        refine ⟨tr.take k1, (tr.take k2).drop k1, s1, ?_, ?_, runW_iff.2 hs1, rfl⟩
        · have h7 := List.take_append_drop k1 (tr.take k2)
          rw [List.take_take, min_eq_left (by omega)] at h7
          exact h7.symm
        · split at hx'
          · rename_i w' j' 
            simp only [decide_eq_true_eq] at hx'
            subst hx'
            exact ⟨w', hx⟩
          · cases hx'
    · cases h3
  · cases h2

/-- right after the passing of time all time stamps are past -/
theorem stamps_after_tick {B : Invocation P canon root fs cache} {clock : Nat} {tr : List (WEv α)} {s : St α}
    (h0 : ∀ p e, fs p = some e → e.mtime ≤ clock) (h : B.RunW up clock (tr ++ [.ev .tick]) s) :
    ∀ p e, s.fs p = some e → e.mtime < s.clock := by
  obtain ⟨s1, h1, h2⟩ := h.last
  have h3 := stampsW h0 h1
  obtain ⟨s2, h4, rfl⟩ := stepW_ev h2
  cases h4
  intro p e he
  rcases touchDirs_cases (up := up) s1.clock (news P B.objs .tick) s1.fs s1.fs p with h | ⟨m, _, h⟩
  · simp only at he
    rw [h] at he
    exact Nat.lt_succ_of_le (h3 p e he)
  · simp only at he
    rw [h] at he
    cases he
    exact Nat.lt_succ_self _

theorem tidy_of {tr : List (WEv α)} (h : tr.all (fun | .other _ _ => false | _ => true) = true) : Tidy P tr := by
  intro p d hm
  rw [List.all_eq_true] at h
  cases h _ hm

end Tools

/-! ### C132: an example, and the case in which it fails -/

/-- The source is edited while the linker runs, which does not read it. -/
def editTr : List (WEv Nat) :=
  [.ev (.sched (.start 0 0)), .ev (.sched (.finish 0 0 .ok)), .ev (.sched (.start 0 2)), .ev (.sched (.finish 0 2 .ok)),
   .ev (.sched (.start 0 3)), .ev (.write 3 99), .ev .tick, .ev (.write 3 15), .ev (.sched (.finish 0 3 .ok)),
   .ev (.sched (.start 0 4)), .ev .tick, .other "a.c" (some (some 6)), .ev (.write 4 115), .ev .tick,
   .ev (.sched (.finish 0 4 .ok)), .ev (.sched (.start 0 1)), .ev (.sched (.finish 0 1 .ok))]

def editS : St Nat := (runW demo worldUp demoB.need demoB.objs demoB.g (demoB.start 7) editTr).getD (demoB.start 7)

def editB2 : Invocation demo id 4 editS.fs [] := .of (lim := 10) (lim' := 10) (n := 1) _ demo_all rfl rfl rfl

def editTr2 : List (WEv Nat) :=
  [.ev (.sched (.start 0 0)), .ev (.sched (.finish 0 0 .ok)), .ev (.sched (.start 0 2)), .ev (.sched (.finish 0 2 .ok)),
   .ev (.sched (.start 0 3)), .ev (.write 3 16), .ev (.sched (.finish 0 3 .ok)),
   .ev (.sched (.start 0 4)), .ev (.write 4 116), .ev (.sched (.finish 0 4 .ok)),
   .ev (.sched (.start 0 1)), .ev (.sched (.finish 0 1 .ok))]

def editS2 : St Nat := (runW demo worldUp editB2.need editB2.objs editB2.g (editB2.start 11) editTr2).getD (editB2.start 11)

theorem demo_old6 : ∀ p e, demoFs p = some e → e.mtime ≤ 6 := fun p e h => Nat.le_of_lt_succ (demo_old p e h)

theorem demo_pristine : Pristine demo demoFs := by
  intro o ho hk
  have := demo_reg_iff.1 ho
  have : o = 0 ∨ o = 1 ∨ o = 2 ∨ o = 3 ∨ o = 4 := by omega
  rcases this with rfl | rfl | rfl | rfl | rfl <;> first | decide +kernel | cases hk

theorem demo_input {o : Nat} (h : InputOf demo id o 0) : o = 2 := by
  have key : ∀ x y, ObjDep id demo.reg x y → y = 4 → False := by
    intro x y h hy
    subst hy
    rw [demo_dep] at h
    simp at h
  cases h with
  | direct h _ =>
    rw [demo_dep] at h
    simp at h
    exact h
  | through h hk h' =>
    exfalso
    rename_i f
    have : f = 4 := by
      rw [demo_dep] at h
      simp only [List.mem_cons, Prod.mk.injEq, List.not_mem_nil, or_false] at h
      rcases h with ⟨_, rfl⟩ | ⟨_, rfl⟩ | ⟨_, rfl⟩ | ⟨_, rfl⟩ | ⟨_, rfl⟩ <;> first | rfl | cases hk
    exact key _ _ h this

theorem edit_run : demoB.RunW worldUp 7 editTr editS := runW_iff.2 rfl

theorem edit_quiet : Quiet demoB worldUp 7 editTr := by
  intro pre post p d s htr hx
  obtain ⟨k, hk, hk1, hpre⟩ := split_at htr
  have hk' : k < 17 := hk
  have hk2 : k = 11 := by interval_cases k <;> first | rfl | (simp [editTr] at hk1)
  subst hk2
  have hp : p = "a.c" := by
    simp [editTr] at hk1
    exact hk1.1.symm
  subst hp
  refine ⟨?_, ?_⟩
  · rintro ⟨o, ho, hko, hpo⟩
    have := demo_reg_iff.1 ho
    have : o = 0 ∨ o = 1 ∨ o = 2 ∨ o = 3 ∨ o = 4 := by omega
    rcases this with rfl | rfl | rfl | rfl | rfl <;> first | (revert hpo; decide) | cases hko
  · intro x hxr hkx _
    have hx0 : x = 0 := by
      have := demo_reg_iff.1 hxr
      have : x = 0 ∨ x = 1 ∨ x = 2 ∨ x = 3 ∨ x = 4 := by omega
      rcases this with rfl | rfl | rfl | rfl | rfl <;> first | rfl | cases hkx
    subst hx0
    have hpre' : pre = editTr.take 10 ++ [.ev .tick] := by rw [hpre]; rfl
    refine ⟨?_, ?_⟩
    · rw [hpre'] at hx
      exact stamps_after_tick (fun p e h => le_of_lt (demo_old p e h)) hx
    · intro i o hrun hi hin
      have := demo_input hin
      subst this
      have h1 : demoB.objs[3]? = some 2 := by decide +kernel
      have := demoB.idx demo_sound demo_root hi h1
      subst this
      refine not_runningW (w := 0) (r := .ok) demo_sound demo_root hx ?_ hrun
      rw [hpre]
      simp [editTr]

theorem edit_history : HistoryW demo id worldUp editS.fs 10 (Left demoB editTr fun _ => False) :=
  HistoryW.build demoB (.checkout demo_old6 demo_pristine) demo_root edit_run (honest_of (by decide +kernel)) edit_quiet

theorem edit_left : ∀ o, ¬ Left demoB editTr (fun _ => False) o := by
  rintro o (⟨⟨i, v, hm, hi⟩, hd⟩ | ⟨_, h⟩)
  · refine hd ⟨0, i, ?_, hi⟩
    simp only [editTr, List.mem_cons, List.not_mem_nil, or_false, reduceCtorEq, false_or, WEv.ev.injEq, Ev.write.injEq] at hm
    rcases hm with ⟨rfl, _⟩ | ⟨rfl, _⟩ | ⟨rfl, _⟩ <;> simp [editTr]
  · exact h

/-- Non-vacuity of C132: the source was edited while the linker was running; the build before ended successfully with the
old contents, the next build runs both commands and ends with the new contents. -/
example : editS.Succeeded ∧ contents editS.fs "d/app" = some 115 ∧
    HistoryW demo id worldUp editS.fs 10 (Left demoB editTr fun _ => False) ∧ (∀ o, ¬ Left demoB editTr (fun _ => False) o) ∧
    editB2.RunW worldUp 11 editTr2 editS2 ∧ Tidy demo editTr2 ∧ Honest editB2 worldUp 11 editTr2 ∧ editS2.Succeeded ∧
    editB2.commands (evs editTr2) = [2, 3] ∧ contents editS2.fs "d/app" = some 116 :=
  ⟨⟨rfl, rfl⟩, by decide +kernel, edit_history, edit_left, runW_iff.2 rfl, tidy_of rfl, honest_of (by decide +kernel), ⟨rfl, rfl⟩,
    by decide +kernel, by decide +kernel⟩

/-- The source is edited after the compiler has read it and before it writes the object file. -/
def lateTr : List (WEv Nat) :=
  [.ev (.sched (.start 0 0)), .ev (.sched (.finish 0 0 .ok)), .ev (.sched (.start 0 2)), .ev (.sched (.finish 0 2 .ok)),
   .ev (.sched (.start 0 3)), .ev .tick, .other "a.c" (some (some 6)), .ev .tick, .ev (.write 3 15), .ev (.sched (.finish 0 3 .ok)),
   .ev (.sched (.start 0 4)), .ev (.write 4 115), .ev (.sched (.finish 0 4 .ok)),
   .ev (.sched (.start 0 1)), .ev (.sched (.finish 0 1 .ok))]

def lateS : St Nat := (runW demo worldUp demoB.need demoB.objs demoB.g (demoB.start 7) lateTr).getD (demoB.start 7)

def lateB2 : Invocation demo id 4 lateS.fs [] := .of (lim := 10) (lim' := 10) (n := 1) _ demo_all rfl rfl rfl

/-- C132 is false of the code.  The first build starts from a fresh checkout; all its commands are honest and succeed; the
only thing that happens beside it is one edit of the source, while the compiler runs that has read it before.  No build
after that (in a new process, and if nobody changes any file) runs any command, although the object file is not what
its command makes of the present source. -/
theorem C132_violated :
    demoB.RunW worldUp 7 lateTr lateS ∧ lateS.Succeeded ∧ Honest demoB worldUp 7 lateTr ∧ Pristine demo demoFs ∧
    (∀ p d, WEv.other p d ∈ lateTr → p = "a.c" ∧ d = some (some 6)) ∧ contents lateS.fs "a.c" = some 6 ∧
    contents lateS.fs "d/a.o" ≠ some (demo.cmd 2 (contents lateS.fs)) ∧
    ∀ clock tr s, lateB2.RunW worldUp clock tr s → lateB2.commands (evs tr) = [] := by
  refine ⟨runW_iff.2 rfl, ⟨rfl, rfl⟩, honest_of (by decide +kernel), demo_pristine, ?_, by decide +kernel, by decide +kernel, ?_⟩
  · intro p d hm
    simp [lateTr] at hm
    exact hm
  · intro clock tr s hx
    rw [List.eq_nil_iff_forall_not_mem]
    intro o hm
    unfold Invocation.commands Invocation.updates at hm
    rw [List.mem_filter, mem_updateCalls, decide_eq_true_eq] at hm
    obtain ⟨⟨hw, _⟩, hk⟩ := hm
    have h5 : o < 5 := by
      by_contra h
      obtain ⟨k, rfl⟩ : ∃ k, o = k + 5 := ⟨o - 5, by omega⟩
      cases hk
    have h2 : work demo.reg lateB2.need 2 = .skips := by decide +kernel
    have h3 : work demo.reg lateB2.need 3 = .skips := by decide +kernel
    interval_cases o
    · cases hk
    · cases hk
    · rw [h2] at hw; cases hw
    · rw [h3] at hw; cases hw
    · cases hk

/-! ### C133: an example, and the case in which it fails -/

/-- the build is killed when the compiler has begun to write the object file -/
def killTr : List (WEv Nat) :=
  [.ev (.sched (.start 0 0)), .ev (.sched (.finish 0 0 .ok)), .ev (.sched (.start 0 2)), .ev (.sched (.finish 0 2 .ok)),
   .ev (.sched (.start 0 3)), .ev .tick, .ev (.write 3 99)]

def killS : St Nat := (runW demo worldUp demoB.need demoB.objs demoB.g (demoB.start 7) killTr).getD (demoB.start 7)

def killB2 : Invocation demo id 4 killS.fs [] := .of (lim := 10) (lim' := 10) (n := 1) _ demo_all rfl rfl rfl

/-- the next build links the broken object file -/
def killTr2 : List (WEv Nat) :=
  [.ev (.sched (.start 0 0)), .ev (.sched (.finish 0 0 .ok)), .ev (.sched (.start 0 2)), .ev (.sched (.finish 0 2 .ok)),
   .ev (.sched (.start 0 3)), .ev (.sched (.finish 0 3 .ok)),
   .ev (.sched (.start 0 4)), .ev (.write 4 199), .ev (.sched (.finish 0 4 .ok)),
   .ev (.sched (.start 0 1)), .ev (.sched (.finish 0 1 .ok))]

/-- C133 is false of the code: the build is killed while the compiler writes the object file.  The next build succeeds, all
its commands are honest, it does not run the compiler again and links the broken object file. -/
theorem C133_violated :
    Pristine demo demoFs ∧ demoB.RunW worldUp 7 killTr killS ∧ Honest demoB worldUp 7 killTr ∧ (∀ p d, WEv.other p d ∉ killTr) ∧
    ∃ s2, killB2.RunW worldUp 9 killTr2 s2 ∧ s2.Succeeded ∧ Honest killB2 worldUp 9 killTr2 ∧ (∀ p d, WEv.other p d ∉ killTr2) ∧
      killB2.commands (evs killTr2) = [3] ∧ contents s2.fs "d/a.o" ≠ some (demo.cmd 2 (contents s2.fs)) :=
  ⟨demo_pristine, runW_iff.2 rfl, honest_of (by decide +kernel), by simp [killTr], _, runW_iff.2 rfl, ⟨rfl, rfl⟩,
    honest_of (by decide +kernel), by simp [killTr2], by decide +kernel, by decide +kernel⟩

/-- the broken file is removed -/
def killFs : FS Nat := removeAll worldUp killS.clock killS.fs ["d/a.o"]

def killB3 : Invocation demo id 4 killFs [] := .of (lim := 10) (lim' := 10) (n := 1) _ demo_all rfl rfl rfl

def killTr3 : List (WEv Nat) :=
  [.ev (.sched (.start 0 0)), .ev (.sched (.finish 0 0 .ok)), .ev (.sched (.start 0 2)), .ev (.sched (.finish 0 2 .ok)),
   .ev (.sched (.start 0 3)), .ev (.write 3 15), .ev (.sched (.finish 0 3 .ok)),
   .ev (.sched (.start 0 4)), .ev (.write 4 115), .ev (.sched (.finish 0 4 .ok)),
   .ev (.sched (.start 0 1)), .ev (.sched (.finish 0 1 .ok))]

/-- Non-vacuity of C133: the same kill; the broken file is removed; the next build builds it again. -/
example : demoB.RunW worldUp (6 + 1) killTr killS ∧ Honest demoB worldUp (6 + 1) killTr ∧ Quiet demoB worldUp (6 + 1) killTr ∧
    (∀ o, WrittenW demoB killTr o → demo.path o ∈ ["d/a.o"]) ∧
    ∃ s3, killB3.RunW worldUp (killS.clock + 1 + 1) killTr3 s3 ∧ Tidy demo killTr3 ∧
      Honest killB3 worldUp (killS.clock + 1 + 1) killTr3 ∧ s3.Succeeded ∧ killB3.commands (evs killTr3) = [2, 3] ∧
      contents s3.fs "d/app" = some 115 := by
  refine ⟨runW_iff.2 rfl, honest_of (by decide +kernel), (tidy_of rfl).quiet, ?_, _, runW_iff.2 rfl, tidy_of rfl,
    honest_of (by decide +kernel), ⟨rfl, rfl⟩, by decide +kernel, by decide +kernel⟩
  rintro o ⟨i, v, hm, hi⟩
  simp [killTr] at hm
  obtain ⟨rfl, _⟩ := hm
  have h1 : demoB.objs[3]? = some 2 := by decide +kernel
  rw [h1] at hi
  cases hi
  decide

end Licant.Make
