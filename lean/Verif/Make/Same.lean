/-
Builds: repeated builds in one process (C74), file targets that depend on other kinds of targets (C76).
-/
import Verif.Make.History

set_option autoImplicit false

namespace Licant.Make
open Licant.Py Licant.Core Relation

variable {α : Type} {P : Proj α} {canon : String → String} {root : Nat} {fs0 : FS α}
  {cache0 : FileCache} {B : Invocation P canon root fs0 cache0} {clock0 : Nat} {s : St α}
  {tr : List (Ev α)}

/-! ### the cache only grows -/

def Grows (c c' : FileCache) : Prop := ∀ p, (c.get p).isSome → (c'.get p).isSome

theorem Grows.refl (c : FileCache) : Grows c c := fun _ h => h
theorem Grows.trans {a b c : FileCache} (h : Grows a b) (h' : Grows b c) : Grows a c :=
  fun p hp => h' p (h p hp)

theorem grows_updateInfo (fs : FS α) (c : FileCache) (p : String) : Grows c (updateInfo fs c p) := by
  intro q hq
  unfold updateInfo
  by_cases h : p = q
  · subst h; simp
  · rw [Dict.get_set_ne _ _ (by simpa using h)]; exact hq

theorem grows_getInfo (fs : FS α) (c : FileCache) (p : String) : Grows c (getInfo fs c p).2 := by
  unfold getInfo
  split
  · exact .refl _
  · exact grows_updateInfo _ _ _

theorem getInfo_some (fs : FS α) (c : FileCache) (p : String) : ((getInfo fs c p).2.get p).isSome := by
  unfold getInfo
  split
  · rename_i h; simp [h]
  · simp [updateInfo]

theorem grows_foldlM {δ : Type} (F : Nat × FileCache → δ → Except Err (Nat × FileCache))
    (hF : ∀ p d r, F p d = .ok r → Grows p.2 r.2) :
    ∀ (l : List δ) (p r : Nat × FileCache), l.foldlM F p = .ok r → Grows p.2 r.2 := by
  intro l
  induction l with
  | nil => intro p r h; cases h; exact .refl _
  | cons d l ih =>
    intro p r h
    simp only [List.foldlM_cons, bind, Except.bind] at h
    split at h
    · cases h
    · rename_i q hq
      exact (hF p d q hq).trans (ih q r h)

theorem grows_mtime (fs : FS α) (fuel : Nat) : ∀ (o : Nat) (c : FileCache) (r : Nat × FileCache),
    mtime P canon fs fuel o c = .ok r → Grows c r.2 := by
  induction fuel with
  | zero => intro o c r h; cases h
  | succ n ih =>
    intro o c r h
    unfold mtime at h
    split at h
    · cases h; exact grows_getInfo _ _ _
    · cases h; exact grows_getInfo _ _ _
    · cases h; exact .refl _
    · refine grows_foldlM _ ?_ _ (0, c) r h
      intro p d q hq
      simp only [bind, Except.bind] at hq
      split at hq
      · cases hq
      · split at hq
        · cases hq
        · rename_i r' hr'
          cases hq
          exact ih _ _ r' hr'
    · cases h

theorem grows_maxDepTime {fs : FS α} {lim : Nat} {l : List Nat} {c : FileCache} {r : Nat × FileCache}
    (h : maxDepTime P canon fs lim l c = .ok r) : Grows c r.2 := by
  unfold maxDepTime at h
  refine grows_foldlM _ ?_ _ (0, c) r h
  intro p d q hq
  simp only [bind, Except.bind] at hq
  split at hq
  · cases hq
  · rename_i r' hr'
    cases hq
    exact grows_mtime fs lim _ _ r' hr'

/-- `update_if` reads the status of its own path unless the target is forced -/
theorem internalUpdateIf_looks {fs : FS α} {lim o : Nat} {c : FileCache} {r : Bool × FileCache}
    (h : internalUpdateIf P canon fs lim o c = .ok r) :
    Grows c r.2 ∧ (IsPath P o → P.force o = false → (r.2.get (P.path o)).isSome) := by
  have key : ∀ (e : (if P.force o then .ok (true, c)
      else
        let e := getInfo fs c (P.path o)
        if e.1.exist = false then .ok (true, e.2)
        else do
          let l ← (P.reg.obj o).deps.mapM (Core.get canon P.reg)
          let m ← maxDepTime P canon fs lim l e.2
          let i := getInfo fs m.2 (P.path o)
          .ok (decide (m.1 > i.1.mtime), i.2)) = (Except.ok r : Except Err (Bool × FileCache))),
      Grows c r.2 ∧ (IsPath P o → P.force o = false → (r.2.get (P.path o)).isSome) := by
    intro e
    split at e
    · rename_i hf
      cases e
      exact ⟨.refl _, fun _ h => by rw [hf] at h; cases h⟩
    · simp only at e
      split at e
      · cases e; exact ⟨grows_getInfo _ _ _, fun _ _ => getInfo_some _ _ _⟩
      · simp only [bind, Except.bind] at e
        split at e
        · cases e
        · split at e
          · cases e
          · rename_i m hm
            cases e
            exact ⟨((grows_getInfo _ _ _).trans (grows_maxDepTime hm)).trans (grows_getInfo _ _ _),
              fun _ _ => getInfo_some _ _ _⟩
  cases hk : P.kind o with
  | file => unfold internalUpdateIf at h; rw [hk] at h; exact key h
  | source => unfold internalUpdateIf at h; rw [hk] at h; exact key h
  | dir =>
    unfold internalUpdateIf at h; rw [hk] at h
    cases h
    exact ⟨grows_getInfo _ _ _, fun _ _ => getInfo_some _ _ _⟩
  | fileset =>
    unfold internalUpdateIf at h; rw [hk] at h
    cases h
    refine ⟨.refl _, fun hp => ?_⟩
    rcases hp with hp | hp | hp <;> rw [hk] at hp <;> cases hp
  | other =>
    unfold internalUpdateIf at h; rw [hk] at h
    simp only [bind, Except.bind] at h
    split at h
    · cases h
    · cases h
      refine ⟨.refl _, fun hp => ?_⟩
      rcases hp with hp | hp | hp <;> rw [hk] at hp <;> cases hp

theorem evalCache_looks {fs : FS α} {lim : Nat} : ∀ (l : List Nat) (c c' : FileCache),
    evalCache P canon fs lim l c = .ok c' →
    Grows c c' ∧ ∀ o ∈ l, IsPath P o → P.force o = false → (c'.get (P.path o)).isSome := by
  intro l
  induction l with
  | nil => intro c c' h; cases h; exact ⟨.refl _, by simp⟩
  | cons o l ih =>
    intro c c' h
    unfold evalCache at h
    simp only [List.foldlM_cons, bind, Except.bind] at h
    split at h
    · cases h
    · rename_i c1 hc1
      split at hc1
      · cases hc1
      · rename_i r hr
        cases hc1
        obtain ⟨h1, h2⟩ := internalUpdateIf_looks hr
        obtain ⟨h3, h4⟩ := ih r.2 c' h
        refine ⟨h1.trans h3, ?_⟩
        intro o' ho' hp hf
        rcases List.mem_cons.1 ho' with rfl | ho'
        · exact h3 _ (h2 hp hf)
        · exact h4 o' ho' hp hf

theorem grows_step {s' : St α} {e : Ev α} (h : step P B.need B.objs B.g s e = some s') :
    Grows s.cache s'.cache := by
  cases e with
  | tick => cases h; exact .refl _
  | write i v =>
    simp only [step] at h
    split at h
    · split at h
      · cases h; exact .refl _
      · cases h
    · cases h
  | sched e =>
    simp only [step] at h
    split at h
    · cases h
    · split at h
      · split at h
        · split at h
          · rename_i p hfe
            cases h
            simp only
            unfold finishEffect at hfe
            split at hfe
            · simp only at hfe
              split at hfe
              · split at hfe
                · cases hfe; exact grows_getInfo _ _ _
                · cases hfe
              · split at hfe
                · cases hfe
                  exact (grows_getInfo _ _ _).trans (grows_updateInfo _ _ _)
                · cases hfe; exact grows_getInfo _ _ _
                · cases hfe
            · split at hfe
              · split at hfe
                · cases hfe; exact .refl _
                · cases hfe
              · split at hfe
                · cases hfe; exact .refl _
                · cases hfe
              · split at hfe
                · split at hfe
                  · cases hfe; exact grows_updateInfo _ _ _
                  · cases hfe
                · split at hfe
                  · cases hfe; exact .refl _
                  · cases hfe
                · split at hfe
                  · cases hfe; exact .refl _
                  · cases hfe; exact grows_updateInfo _ _ _
                · cases hfe; exact .refl _
          · cases h
        · cases h
      · cases h; exact .refl _

theorem grows_run (h : B.Run clock0 tr s) : Grows B.cache1 s.cache := by
  induction h with
  | nil => exact .refl _
  | snoc _ hst ih => exact ih.trans (grows_step hst)

/-! ### C74 -/

/-- C74 is false of the code, for every project: after a successful build, whatever happens to the
files (`fs'` is arbitrary), later builds in the same process update nothing. -/
theorem C74_violated (hS : Sound P canon) (hroot : Registered P.reg root)
    (hk : P.kind root ≠ .other) (hacc : Accurate P fs0 cache0)
    (hnf : ∀ o, Closure canon P.reg root o → P.force o = false)
    (hsrc : ∀ o, Closure canon P.reg root o → P.kind o = .source → (fs0 (P.path o)).isSome)
    (ht : ∀ p e, fs0 p = some e → e.mtime ≤ clock0)
    (hx : B.Run clock0 tr s) (hp : Productive B tr) (hs : s.Succeeded)
    (fs' : FS α) (B' : Invocation P canon root fs' s.cache)
    {clock' : Nat} {tr' : List (Ev α)} {s' : St α} (_hx' : B'.Run clock' tr' s') :
    B'.updates tr' = [] ∧ B'.commands tr' = [] := by
  have hnw := ((C33_up_to_date hS hroot hk hacc hnf hsrc ht hx hp hs).2.2 s.cache (Or.inr rfl)).1
  obtain ⟨lim, l, hl, hev⟩ := B.cached
  have hlook : ∀ o, Closure canon P.reg root o → IsPath P o → (s.cache.get (P.path o)).isSome := by
    intro o ho hpo
    refine grows_run hx _ ((evalCache_looks l cache0 B.cache1 hev).2 o ?_ hpo (hnf o ho))
    exact (hl o).2 ⟨closure_registered hroot ho, closure_upd hS hroot hk ho⟩
  have hview : ∀ o, Closure canon P.reg root o → IsPath P o →
      view fs' s.cache (P.path o) = view s.fs s.cache (P.path o) := by
    intro o ho hpo
    obtain ⟨i, hi⟩ := Option.isSome_iff_exists.1 (hlook o ho hpo)
    simp [view, hi]
  have hnw' : ¬ NeedsWork P canon (view fs' s.cache) root := by
    rintro ⟨o, ho, hood⟩
    refine hnw ⟨o, ho, ?_⟩
    unfold OutOfDate at hood ⊢
    have hin : ∀ o', InputOf P canon o o' → view fs' s.cache (P.path o') = view s.fs s.cache (P.path o') :=
      fun o' h => hview o' (ReflTransGen.trans ho h.closure)
        (h.kind.elim Or.inl (fun h => Or.inr (Or.inl h)))
    have key : IsPath P o → (P.force o = true ∨ (view fs' s.cache (P.path o)).exist = false ∨
        ∃ o', InputOf P canon o o' ∧ (view fs' s.cache (P.path o')).mtime >
          (view fs' s.cache (P.path o)).mtime) → (P.force o = true ∨
        (view s.fs s.cache (P.path o)).exist = false ∨
        ∃ o', InputOf P canon o o' ∧ (view s.fs s.cache (P.path o')).mtime >
          (view s.fs s.cache (P.path o)).mtime) := by
      intro hpo h
      rw [hview o ho hpo] at h
      rcases h with h | h | ⟨o', h1, h2⟩
      · exact Or.inl h
      · exact Or.inr (Or.inl h)
      · rw [hin o' h1] at h2
        exact Or.inr (Or.inr ⟨o', h1, h2⟩)
    cases hko : P.kind o with
    | file => rw [hko] at hood; exact key (Or.inl hko) hood
    | source => rw [hko] at hood; exact key (Or.inr (Or.inl hko)) hood
    | dir =>
      rw [hko] at hood
      simp only at hood ⊢
      rw [← hview o ho (Or.inr (Or.inr hko))]; exact hood
    | fileset => rw [hko] at hood; exact hood
    | other => exact absurd hko (closure_kind hS hk ho)
  have hu : B'.updates tr' = [] := by
    rw [List.eq_nil_iff_forall_not_mem]
    intro o hm
    unfold Invocation.updates at hm
    obtain ⟨h1, w, i, _, hi⟩ := mem_updateCalls.1 hm
    have hcl := B'.closure hS hroot hi
    exact hnw' (((need_closure hS hroot hk B' hcl).1.1 h1).mono hcl)
  exact ⟨hu, by simp [Invocation.commands, hu]⟩

/-- the demo project, built, then the source edited, then built again in the same process -/
def demoBSame : Invocation demo id 4 demoFs3 demoS.cache :=
  .of (lim := 10) (lim' := 10) (n := 1) _ demo_all rfl rfl rfl

/-- Witness for C74_violated: `a.c` was edited (contents 6, newer time stamp); the second build in
the same process succeeds and leaves the old `d/app`, the one in a new process makes the new one. -/
theorem C74_violated_witness : ∃ s s', demoBSame.Run 21 demoTr2 s ∧ s.Succeeded ∧
    contents s.fs "a.c" = some 6 ∧ contents s.fs "d/app" = some 115 ∧
    demoB3.Run 21 demoTr3 s' ∧ s'.Succeeded ∧ contents s'.fs "d/app" = some 116 :=
  ⟨_, _, run_iff.2 rfl, ⟨rfl, rfl⟩, by decide +kernel, by decide +kernel, run_iff.2 rfl, ⟨rfl, rfl⟩,
    by decide +kernel⟩

/-- C74, proved part: in a new process, a build after the edit of a source runs exactly the commands
of the file targets that depend on it.
Missing: processes that have already built something (`C74_violated`). -/
theorem C74_partial (hS : Sound P canon) (hroot : Registered P.reg root)
    (hk : P.kind root ≠ .other) {fs1 : FS α} (hup : ¬ NeedsWork P canon (fileinfo fs1) root)
    {x t : Nat} {d : α} (hxr : Registered P.reg x) (hxk : P.kind x = .source)
    (ht : ∀ p e, fs1 p = some e → e.mtime < t)
    (B : Invocation P canon root (setFile fs1 (P.path x) ⟨t, some d⟩) [])
    (hx : B.Run clock0 tr s) (hs : s.Succeeded) (o : Nat) :
    o ∈ B.commands tr ↔
      Closure canon P.reg root o ∧ P.kind o = .file ∧ TransGen (ObjDep canon P.reg) o x :=
  (C36_rebuild_exactly_dependents hS hroot hk hup hxr hxk ht rfl (accurate_nil _ _) hx).2 hs o

/-- Non-vacuity of C74_partial. -/
example : 3 ∈ demoB3.commands demoTr3 ↔ TransGen (ObjDep id demo.reg) 3 0 := by
  have h := C74_partial demo_sound demo_root (by decide) demo_up_to_date (x := 0) (t := 20) (d := 6)
    (demo_reg_iff.2 (by decide)) rfl (fun p e h => by
      have h1 := mtimes_le demoS_run (fun p e h => le_of_lt (demo_old p e h)) p e h
      have h2 : demoS.clock = 9 := by decide +kernel
      omega) demoB3 (clock0 := 21) (tr := demoTr3) (run_iff.2 rfl) ⟨rfl, rfl⟩ 3
  exact h.trans ⟨fun h => h.2.2, fun h => ⟨.single (demo_dep.2 (by decide)), rfl, h⟩⟩

/-! ### C76 -/

/-- C76 is false of the code: as soon as a file target that exists (and is not forced) depends on a
target that is not a make target, no build can begin in that registry: evaluating the needs raises. -/
theorem C76_violated (hn : P.reg.targets.keys.Nodup) {o o' : Nat} (ho : Registered P.reg o)
    (hu : (P.reg.obj o).upd = true) (hk : P.kind o = .file) (hf : P.force o = false)
    (hex : (view fs0 cache0 (P.path o)).exist = true) (hd : ObjDep canon P.reg o o')
    (hk' : P.kind o' = .other) : Invocation P canon root fs0 cache0 → False := by
  intro B
  obtain ⟨lim, lim', m, m', _, hev, _⟩ := B.evaluated
  obtain ⟨b, hb⟩ := updateNeeds_called hn hev o ho hu
  unfold updIf internalUpdateIf at hb
  rw [hk] at hb
  simp only [hf, Bool.false_eq_true, if_false, getInfo_fst, hex, Bool.true_eq_false] at hb
  simp only [bind, Except.bind] at hb
  cases hl : (P.reg.obj o).deps.mapM (Core.get canon P.reg) with
  | error e => rw [hl] at hb; cases hb
  | ok l =>
    rw [hl] at hb
    simp only at hb
    cases hm : maxDepTime P canon fs0 lim l (getInfo fs0 cache0 (P.path o)).2 with
    | error e => rw [hm] at hb; cases hb
    | ok r =>
      have hmem : o' ∈ l := (mem_deplist (mapM_get.1 hl) o').2 hd
      -- the call of `mtime` on `o'` raises
      have : ∀ (l : List Nat) (p : Nat × FileCache), o' ∈ l → ∀ r,
          l.foldlM (fun (p : Nat × FileCache) dep => do
            let r ← mtime P canon fs0 lim dep p.2
            .ok (if isFile P dep && r.1 > p.1 then r.1 else p.1, r.2)) p ≠ Except.ok r := by
        intro l
        induction l with
        | nil => intro p h; cases h
        | cons d l ih =>
          intro p h r hr
          simp only [List.foldlM_cons, bind, Except.bind] at hr
          split at hr
          · cases hr
          · rename_i q hq
            split at hq
            · cases hq
            · rename_i r' hr'
              rcases List.mem_cons.1 h with rfl | h
              · cases lim with
                | zero => cases hr'
                | succ n => unfold mtime at hr'; rw [hk'] at hr'; cases hr'
              · exact ih _ h _ hr
      exact this l _ hmem r hm

/-- a file target `out` (which exists) that depends on the routine `gen` -/
def mixed : Proj Nat where
  reg :=
    { targets := [("gen", 0), ("out", 1)]
      obj := fun
        | 0 => ⟨"gen", [], true, [], "recurse_update"⟩
        | 1 => ⟨"out", ["gen"], true, [], "makefile"⟩
        | _ => ⟨"", [], false, [], "action"⟩
      next := 2 }
  kind := fun
    | 1 => .file
    | _ => .other
  force := fun _ => false
  upd := fun _ => .ok true
  cmd := fun _ _ => 0
  parents := fun _ => []

/-- Witness for C76_violated: the hypotheses hold, and the evaluation ends with `AttributeError`. -/
theorem C76_violated_witness :
    (Invocation mixed id 1 (fun p => if p = "out" then some ⟨1, some 0⟩ else none) [] → False) ∧
    updateNeeds id mixed.reg
      (updIf mixed id (fun p => if p = "out" then some ⟨1, some 0⟩ else none) [] 10) 10 noMarks =
      .error .attribute :=
  ⟨C76_violated (by decide) ⟨"out", rfl⟩ rfl rfl rfl rfl (o := 1) (o' := 0)
    ⟨"gen", by decide, Or.inl rfl⟩ rfl, rfl⟩

/-- C76, proved part: as long as the file target does not exist (or it is forced) the test answers
"out of date", whatever it depends on.
Missing: file targets that exist (`C76_violated`). -/
theorem C76_partial {fs : FS α} {lim o : Nat} {cache : FileCache} (hk : P.kind o = .file)
    (h : P.force o = true ∨ (view fs cache (P.path o)).exist = false) :
    updIf P canon fs cache lim o = .ok true := by
  unfold updIf internalUpdateIf
  rw [hk]
  simp only [getInfo_fst]
  by_cases hf : P.force o = true
  · simp [hf, Except.map]
  · have h := h.resolve_left hf
    simp [hf, h, Except.map]

/-- Non-vacuity of C76_partial: the first build of `out` begins. -/
example : ∃ m, updateNeeds id mixed.reg (updIf mixed id (fun _ => none) [] 10) 10 noMarks = .ok m :=
  ⟨_, rfl⟩

end Licant.Make
