/-
Builds: lemmas about runs.
-/
import Verif.Make.Cache
import Verif.Core.Update

set_option autoImplicit false

namespace Licant.Make
open Licant.Py Licant.Core Relation

variable {α : Type} {P : Proj α} {canon : String → String} {root : Nat} {fs0 : FS α}
  {cache0 : FileCache}

/-! ### evaluation -/

theorem updIf_ok {fs : FS α} {cache : FileCache} {lim o : Nat} {b : Bool}
    (h : updIf P canon fs cache lim o = .ok b) :
    b = true ↔ OutOfDate P canon (view fs cache) o := by
  unfold updIf at h
  cases hi : internalUpdateIf P canon fs lim o cache with
  | error e => rw [hi] at h; cases h
  | ok r =>
    rw [hi] at h
    obtain ⟨b', c'⟩ := r
    cases h
    obtain ⟨h1, h2, h3, _⟩ := C32_staleness lim o cache c' b' hi
    unfold OutOfDate
    cases hk : P.kind o with
    | file => exact h1 (Or.inl hk)
    | source => exact h1 (Or.inr hk)
    | dir => exact h2 hk
    | fileset => simp [h3 hk]
    | other =>
      simp only [internalUpdateIf, hk, bind, Except.bind] at hi
      split at hi
      · cases hi
      · rename_i b hb
        cases hi
        simp [hb]

/-- a finished evaluation has called `update_if` of every registered updatable target -/
theorem updateNeeds_called {c : Reg} {upd : Nat → Except Err Bool} {lim : Nat} {m m' : Marks}
    (hn : c.targets.keys.Nodup) (h : updateNeeds canon c upd lim m = .ok m') :
    ∀ o, Registered c o → (c.obj o).upd = true → ∃ b, upd o = .ok b := by
  unfold updateNeeds at h
  have loop : ∀ (l : List Nat) (m m' : Marks),
      (∀ o, Registered c o → (c.obj o).upd = true → m.need o = none ∨ ∃ b, upd o = .ok b) →
      l.foldlM (evaluateOne canon c upd lim) m = .ok m' →
      ∀ o ∈ l, Registered c o → (c.obj o).upd = true → ∃ b, upd o = .ok b := by
    intro l
    induction l with
    | nil => intro m m' _ _ o ho; cases ho
    | cons x l ih =>
      intro m m' hinv h o ho hreg hup
      simp only [List.foldlM_cons, bind, Except.bind] at h
      split at h
      · cases h
      · rename_i m1 hm1
        have hx : Registered c x → (c.obj x).upd = true → ∃ b, upd x = .ok b := by
          intro hrx hux
          rcases hinv x hrx hux with hnone | hb
          · unfold evaluateOne at hm1
            simp only [hux, if_true, bind, Except.bind] at hm1
            split at hm1
            · cases hm1
            · rename_i r hr
              cases lim with
              | zero => simp [request] at hr
              | succ lim =>
                rw [request_succ] at hr
                simp only [hux, hnone, Bool.true_eq_false, if_false] at hr
                split at hr
                · cases hr
                · rename_i e; exact ⟨_, e⟩
                · rename_i e; exact ⟨_, e⟩
          · exact hb
        rcases List.mem_cons.1 ho with rfl | ho
        · exact hx hreg hup
        · refine ih m1 m' ?_ h o ho hreg hup
          intro y hry huy
          unfold evaluateOne at hm1
          split at hm1
          · simp only [bind, Except.bind] at hm1
            split at hm1
            · cases hm1
            · cases hm1
              simp only
              split
              · rename_i e; subst e; exact Or.inr (hx hry huy)
              · exact hinv y hry huy
          · cases hm1; exact hinv y hry huy
  intro o hreg hup
  refine loop _ _ _ ?_ h o ((registered_iff_mem hn).1 hreg) hreg hup
  intro y hry huy
  left
  unfold nullify
  simp only [(registered_iff_mem hn).1 hry, huy, and_self, if_true]

/-- what an evaluation decides about a registered make target -/
theorem Invocation.need_iff (hS : Sound P canon) (B : Invocation P canon root fs0 cache0) {o : Nat}
    (ho : Registered P.reg o) (hu : (P.reg.obj o).upd = true)
    (hall : ∀ o', Closure canon P.reg o o' → (P.reg.obj o').upd = true) :
    (work P.reg B.need o = .calls ↔ NeedsWork P canon (view fs0 cache0) o) ∧
    (work P.reg B.need o = .skips ↔ ¬ NeedsWork P canon (view fs0 cache0) o) := by
  obtain ⟨lim, lim', m, m', hco, hev, hneed⟩ := B.evaluated
  obtain ⟨_, h2⟩ := updateNeeds_ok hS.nodup hco hev
  obtain ⟨b, hb, ha, _⟩ := h2 o ho hu
  have hst : Stale canon P.reg (updIf P canon fs0 cache0 lim) o ↔
      NeedsWork P canon (view fs0 cache0) o := by
    constructor
    · rintro ⟨o', hr, h⟩
      exact ⟨o', hr, (updIf_ok h).1 rfl⟩
    · rintro ⟨o', hr, h⟩
      have hro' : Registered P.reg o' := by
        rcases ReflTransGen.cases_tail hr with rfl | ⟨x, _, hx⟩
        · exact ho
        · exact hx.registered
      obtain ⟨b', hb'⟩ := updateNeeds_called hS.nodup hev o' hro' (hall o' hr)
      refine ⟨o', hr, ?_⟩
      rw [hb', (updIf_ok hb').2 h]
  rw [← hst, ← ha, hneed]
  unfold work
  rw [hb]
  cases b <;> simp [hu]

theorem view_ok_iff {fs : FS α} {cache cache' : FileCache} {lim o : Nat} {b : Bool}
    (h : internalUpdateIf P canon fs lim o cache = .ok (b, cache')) : view fs cache' = view fs cache :=
  (C32_staleness lim o cache cache' b h).2.2.2

theorem evalCache_ok {fs : FS α} {lim : Nat} : ∀ (l : List Nat) (cache cache' : FileCache),
    evalCache P canon fs lim l cache = .ok cache' → view fs cache' = view fs cache := by
  intro l
  induction l with
  | nil => intro cache cache' h; cases h; rfl
  | cons o l ih =>
    intro cache cache' h
    unfold evalCache at h
    simp only [List.foldlM_cons, bind, Except.bind] at h
    split at h
    · cases h
    · rename_i c1 hc1
      split at hc1
      · cases hc1
      · rename_i r hr
        cases hc1
        rw [ih r.2 cache' h]
        exact view_ok_iff (b := r.1) hr

/-- the evaluation does not change the program's beliefs -/
theorem Invocation.view1 (B : Invocation P canon root fs0 cache0) :
    view fs0 B.cache1 = view fs0 cache0 := by
  obtain ⟨lim, l, _, h⟩ := B.cached
  exact evalCache_ok l cache0 B.cache1 h

/-! ### the closure of a make target -/

theorem closure_registered (hroot : Registered P.reg root) {o : Nat} (h : Closure canon P.reg root o) :
    Registered P.reg o := by
  rcases ReflTransGen.cases_tail h with rfl | ⟨x, _, hx⟩
  · exact hroot
  · exact hx.registered

theorem closure_kind (hS : Sound P canon) (hk : P.kind root ≠ .other) {o : Nat}
    (h : Closure canon P.reg root o) : P.kind o ≠ .other := by
  induction h with
  | refl => exact hk
  | @tail x y _ hxy ih =>
    cases hx : P.kind x with
    | file => exact hS.fileDeps x y (Or.inl hx) hxy
    | fileset => exact hS.fileDeps x y (Or.inr hx) hxy
    | source => rw [hS.srcDeps x y (Or.inl hx) hxy]; simp
    | dir => rw [hS.srcDeps x y (Or.inr hx) hxy]; simp
    | other => exact absurd hx ih

theorem closure_upd (hS : Sound P canon) (hroot : Registered P.reg root) (hk : P.kind root ≠ .other)
    {o : Nat} (h : Closure canon P.reg root o) : (P.reg.obj o).upd = true :=
  hS.upd o (closure_registered hroot h) (closure_kind hS hk h)

theorem InputOf.trans {o o' : Nat} (h : InputOf P canon o o') : TransGen (ObjDep canon P.reg) o o' := by
  induction h with
  | direct hd _ => exact .single hd
  | through hd _ _ ih => exact .head hd ih

theorem InputOf.kind {o o' : Nat} (h : InputOf P canon o o') : P.kind o' = .file ∨ P.kind o' = .source := by
  induction h with
  | direct _ hk => exact hk
  | through _ _ _ ih => exact ih

theorem InputOf.registered {o o' : Nat} (h : InputOf P canon o o') : Registered P.reg o' := by
  induction h with
  | direct hd _ => exact hd.registered
  | through _ _ _ ih => exact ih

theorem InputOf.closure {o o' : Nat} (h : InputOf P canon o o') : Closure canon P.reg o o' :=
  h.trans.to_reflTransGen

/-! ### runs -/

@[simp] theorem sched_nil : sched ([] : List (Ev α)) = [] := rfl

@[simp] theorem sched_append (a b : List (Ev α)) : sched (a ++ b) = sched a ++ sched b := by
  simp [sched]

@[simp] theorem sched_sched (e : Solver.Ev) : sched [Ev.sched (α := α) e] = [e] := rfl
@[simp] theorem sched_tick : sched [Ev.tick (α := α)] = [] := rfl
@[simp] theorem sched_write (i : Nat) (v : α) : sched [Ev.write i v] = [] := rfl

theorem mem_sched {tr : List (Ev α)} {e : Solver.Ev} : e ∈ sched tr ↔ Ev.sched e ∈ tr := by
  simp only [sched, List.mem_filterMap]
  constructor
  · rintro ⟨x, hx, h⟩
    cases x <;> simp at h
    subst h; exact hx
  · intro h; exact ⟨_, h, rfl⟩

variable {need : Nat → Option Bool} {objs : List Nat} {g : Solver.Graph} {n : Nat} {s0 s : St α}
  {tr : List (Ev α)}

theorem Run.exec (h0 : s0.sol = Solver.init g n) (h : Run P need objs g s0 tr s) :
    Solver.Exec g n (sched tr) s.sol := by
  induction h with
  | nil => rw [h0]; exact .init
  | @snoc tr s e s' _ hst ih =>
    cases e with
    | tick => cases hst; simpa using ih
    | write i v =>
      simp only [step] at hst
      split at hst
      · split at hst
        · cases hst; simpa using ih
        · cases hst
      · cases hst
    | sched e =>
      rw [sched_append, sched_sched]
      simp only [step] at hst
      split at hst
      · cases hst
      · rename_i sol hsol
        have hsn : Solver.Exec g n (sched tr ++ [e]) sol := .snoc ih hsol
        split at hst
        · split at hst
          · split at hst
            · cases hst; exact hsn
            · cases hst
          · cases hst
        · cases hst; exact hsn

theorem Run.prefix (h : Run P need objs g s0 tr s) :
    ∀ pre post, tr = pre ++ post → ∃ s', Run P need objs g s0 pre s' := by
  induction h with
  | nil =>
    intro pre post h
    have : pre = [] := by cases pre <;> simp_all
    subst this; exact ⟨_, .nil⟩
  | @snoc tr s e s' hx hst ih =>
    intro pre post h
    rcases List.eq_nil_or_concat post with rfl | ⟨q, x, rfl⟩
    · rw [List.append_nil] at h; subst h; exact ⟨s', .snoc hx hst⟩
    · rw [List.concat_eq_append, ← List.append_assoc] at h
      exact ih pre q (List.append_inj' h rfl).1

/-- What one step does to the file system. -/
inductive FsStep (P : Proj α) (need : Nat → Option Bool) (objs : List Nat) (s s' : St α) : Ev α → Prop
  | same {e} : s'.fs = s.fs → (∀ i v, e ≠ .write i v) → FsStep P need objs s s' e
  | write {i v o} : objs[i]? = some o → Solver.WS.run i ∈ s.sol.ws → P.kind o = .file →
      work P.reg need o = .calls → s'.fs = setFile s.fs (P.path o) ⟨s.clock, some v⟩ →
      FsStep P need objs s s' (.write i v)
  | mkdir {w i o} : objs[i]? = some o → P.kind o = .dir → s.fs (P.path o) = none →
      (view s.fs s.cache (P.path o)).exist = false →
      s'.fs = makedirs P s.fs s.clock (P.path o) →
      FsStep P need objs s s' (.sched (.finish w i .ok))

theorem fsStep {s' : St α} {e : Ev α} (h : step P need objs g s e = some s') :
    FsStep P need objs s s' e := by
  cases e with
  | tick => cases h; exact .same rfl (by simp)
  | write i v =>
    simp only [step] at h
    split at h
    · rename_i o ho
      split at h
      · rename_i hc
        cases h
        exact .write ho hc.1 hc.2.1 hc.2.2 rfl
      · cases h
    · cases h
  | sched e =>
    simp only [step] at h
    split at h
    · cases h
    · rename_i sol hsol
      split at h
      · rename_i w i r
        split at h
        · rename_i o ho
          split at h
          · rename_i p hp
            cases h
            unfold finishEffect at hp
            cases hk : P.kind o with
            | dir =>
              simp only [hk, getInfo_fst] at hp
              split at hp
              · split at hp
                · cases hp; exact .same rfl (by simp)
                · cases hp
              · rename_i hex
                split at hp
                · rename_i hf
                  cases hp
                  exact .mkdir ho hk hf (by simpa using hex) rfl
                · cases hp; exact .same rfl (by simp)
                · cases hp
            | file =>
              simp only [hk] at hp
              split at hp <;> (try split at hp) <;> cases hp <;> exact .same rfl (by simp)
            | source =>
              simp only [hk] at hp
              split at hp <;> (try split at hp) <;> cases hp <;> exact .same rfl (by simp)
            | fileset =>
              simp only [hk] at hp
              split at hp <;> (try split at hp) <;> cases hp <;> exact .same rfl (by simp)
            | other =>
              simp only [hk] at hp
              split at hp <;> (try split at hp) <;> cases hp <;> exact .same rfl (by simp)
          · cases h
        · cases h
      · cases h; exact .same rfl (by simp)

theorem step_clock {s' : St α} {e : Ev α} (h : step P need objs g s e = some s') : s.clock ≤ s'.clock := by
  cases e with
  | tick => cases h; exact Nat.le_succ _
  | write i v =>
    simp only [step] at h
    split at h
    · split at h
      · cases h; exact le_refl _
      · cases h
    · cases h
  | sched e =>
    simp only [step] at h
    split at h
    · cases h
    · split at h
      · split at h
        · split at h
          · cases h; exact le_refl _
          · cases h
        · cases h
      · cases h; exact le_refl _

end Licant.Make
