/-
Sessions: a process registers targets, looks names up and evaluates needs, in any order (C72, C30).
-/
import Verif.Core.Update

set_option autoImplicit false

namespace Licant.Core
open Licant.Py Relation
open Licant.Solver (DTarget Ev IsOrder Exec)

variable {canon : String → String} {c : Reg} {updIf : Nat → Except Err Bool}

/-- What a process has done with a core so far: `ops` are its registrations and lookups, `m` what the target objects
remember.  Targets are registered only under names that do not stand for a target yet; in between there are evaluations
(one for every `do`), each with the answers `updIf` that the `update_if` functions give at that time. -/
inductive Session (canon : String → String) : List Op → Marks → Prop where
  | start : Session canon [] noMarks
  | add {ops : List Op} {m : Marks} (ob : Obj) : Session canon ops m →
      (∀ o, ¬ Resolves canon (runOps canon Reg.empty ops) ob.tgt o) → Session canon (ops ++ [.add ob]) m
  | has {ops : List Op} {m : Marks} (n : String) : Session canon ops m → Session canon (ops ++ [.has n]) m
  | eval {ops : List Op} {m m' : Marks} (updIf : Nat → Except Err Bool) (lim : Nat) : Session canon ops m →
      updateNeeds canon (runOps canon Reg.empty ops) updIf lim m = .ok m' → Session canon ops m'

/-- lists are remembered for registered targets only -/
def KnownOnly (c : Reg) (cached : Nat → Option (List Nat)) : Prop := ∀ o l, cached o = some l → Registered c o

theorem getDeplist_known {cached cached' : Nat → Option (List Nat)} {o : Nat} {l : List Nat}
    (hr : Registered c o) (hk : KnownOnly c cached) (h : getDeplist canon c cached o = .ok (l, cached')) :
    KnownOnly c cached' := by
  unfold getDeplist at h
  split at h
  · cases h; exact hk
  · simp only [bind, Except.bind] at h
    split at h
    · cases h
    · cases h
      intro i l' hi
      simp only at hi
      split at hi
      · rename_i e; rw [e]; exact hr
      · exact hk i l' hi

theorem request_known {need : Nat → Option Bool} (fuel : Nat) :
    ∀ (o : Nat) (cached cached' : Nat → Option (List Nat)) (b : Bool), Registered c o → Coherent canon c cached →
    KnownOnly c cached → request canon c updIf need fuel o cached = .ok (b, cached') →
    Coherent canon c cached' ∧ KnownOnly c cached' := by
  induction fuel with
  | zero => intro o cached cached' b _ _ _ h; simp [request] at h
  | succ fuel ih =>
    intro o cached cached' b hreg hco hk h
    rw [request_succ] at h
    split at h
    · cases h
    · split at h
      · cases h; exact ⟨hco, hk⟩
      · split at h
        · cases h
        · cases h; exact ⟨hco, hk⟩
        · split at h
          · cases h
          · rename_i l cached1 hd
            obtain ⟨hl, hco1⟩ := getDeplist_ok hco hd
            have hk1 := getDeplist_known hreg hk hd
            have loop : ∀ (ds : List Nat) (b0 : Bool) (ca ca' : Nat → Option (List Nat)) (b : Bool),
                (∀ x ∈ ds, Registered c x) → Coherent canon c ca → KnownOnly c ca →
                ds.foldlM (fun (p : Bool × (Nat → Option (List Nat))) dep =>
                  if p.1 then .ok p else request canon c updIf need fuel dep p.2) (b0, ca) = .ok (b, ca') →
                Coherent canon c ca' ∧ KnownOnly c ca' := by
              intro ds
              induction ds with
              | nil =>
                intro b0 ca ca' b _ hca hka h
                simp only [List.foldlM_nil] at h
                cases h
                exact ⟨hca, hka⟩
              | cons d ds ihd =>
                intro b0 ca ca' b hds hca hka h
                simp only [List.foldlM_cons] at h
                have hds' : ∀ x ∈ ds, Registered c x := fun x hx => hds x (by simp [hx])
                cases b0 with
                | true => exact ihd true ca ca' b hds' hca hka h
                | false =>
                  simp only [Bool.false_eq_true, if_false] at h
                  cases hq : request canon c updIf need fuel d ca with
                  | error e => rw [hq] at h; cases h
                  | ok p =>
                    obtain ⟨b1, ca1⟩ := p
                    rw [hq] at h
                    obtain ⟨h1, h2⟩ := ih d ca ca1 b1 (hds d (by simp)) hca hka hq
                    exact ihd b1 ca1 ca' b hds' h1 h2 h
            exact loop l false cached1 cached' b (fun x hx => ((hl x).1 hx).registered) hco1 hk1 h

theorem updateNeeds_known {lim : Nat} {m m' : Marks} (hn : c.targets.keys.Nodup)
    (hco : Coherent canon c m.cached) (hk : KnownOnly c m.cached)
    (h : updateNeeds canon c updIf lim m = .ok m') : KnownOnly c m'.cached := by
  unfold updateNeeds at h
  have loop : ∀ (l : List Nat) (m m' : Marks), (∀ o ∈ l, Registered c o) →
      Coherent canon c m.cached → KnownOnly c m.cached →
      l.foldlM (evaluateOne canon c updIf lim) m = .ok m' → KnownOnly c m'.cached := by
    intro l
    induction l with
    | nil => intro m m' _ _ hk h; simp only [List.foldlM_nil] at h; cases h; exact hk
    | cons o l ih =>
      intro m m' hl hc hk h
      simp only [List.foldlM_cons] at h
      have hl' : ∀ o ∈ l, Registered c o := fun x hx => hl x (by simp [hx])
      cases he : evaluateOne canon c updIf lim m o with
      | error e => rw [he] at h; cases h
      | ok m1 =>
        rw [he] at h
        unfold evaluateOne at he
        split at he
        · simp only [bind, Except.bind] at he
          split at he
          · cases he
          · rename_i p hq
            obtain ⟨b, ca⟩ := p
            cases he
            obtain ⟨h1, h2⟩ := request_known lim o m.cached ca b (hl o (by simp)) hc hk hq
            exact ih _ m' hl' h1 h2 h
        · cases he; exact ih m m' hl' hc hk h
  exact loop _ (nullify c m) m' (fun o ho => (registered_iff_mem hn).2 ho) hco hk h

/-- what was registered stays in the registry -/
theorem registered_of_added (ops : List Op) : ∀ n : String,
    n ∈ (ops.filterMap fun | .add ob => some ob.tgt | .has _ => none) →
    (runOps canon Reg.empty ops).targets.get n ≠ none := by
  induction ops using List.reverseRecOn with
  | nil => intro n h; cases h
  | append_singleton ops op ih =>
    intro n h
    rw [List.filterMap_append, List.mem_append] at h
    rw [runOps_append]
    cases op with
    | add ob =>
      simp only [runOps, Core.add, Dict.get_set]
      split
      · simp
      · rename_i hne
        rcases h with h | h
        · exact ih n h
        · simp at h; exact absurd h.symm hne
    | has k =>
      simp only [runOps]
      have h' : n ∈ (ops.filterMap fun | .add ob => some ob.tgt | .has _ => none) := by simpa using h
      have := ih n h'
      unfold Core.has
      split
      · exact this
      · split
        · simp only [Dict.get_set]
          split
          · simp
          · exact this
        · exact this

/-- In a session the remembered lists are right, and no name has been registered twice. -/
theorem Session.inv (hc : Idempotent canon) {ops : List Op} {m : Marks} (h : Session canon ops m) :
    NoReRegistration ops ∧ Coherent canon (runOps canon Reg.empty ops) m.cached ∧
      KnownOnly (runOps canon Reg.empty ops) m.cached := by
  induction h with
  | start => exact ⟨by simp [NoReRegistration], coherent_noMarks, fun o l h => by cases h⟩
  | @add ops m ob hs hnew ih =>
    obtain ⟨h1, h2, h3⟩ := ih
    have hfresh := fresh_runOps (canon := canon) ops Reg.empty (by simp [Reg.empty])
    have hnone : (runOps canon Reg.empty ops).targets.get ob.tgt = none := by
      cases hg : (runOps canon Reg.empty ops).targets.get ob.tgt with
      | none => rfl
      | some o => exact absurd (Or.inl hg) (hnew o)
    rw [runOps_append]
    refine ⟨?_, coherent_add ob m.cached ?_ h2 hnone ?_, ?_⟩
    · unfold NoReRegistration at h1 ⊢
      rw [List.filterMap_append, List.nodup_append]
      refine ⟨h1, by simp, ?_⟩
      rintro a ha b hb rfl
      simp at hb
      subst hb
      exact registered_of_added ops _ ha hnone
    · intro o l hl
      obtain ⟨n, hn⟩ := h3 o l hl
      exact hfresh n o hn
    · intro o l hl hm
      obtain ⟨o', ho'⟩ : ∃ o', Resolves canon (runOps canon Reg.empty ops) ob.tgt o' := by
        have := h2 o l hl
        revert hm this
        generalize ((runOps canon Reg.empty ops).obj o).deps = ds
        intro hm h2
        clear hl
        induction h2 with
        | nil => cases hm
        | cons hr _ ih =>
          rcases List.mem_cons.1 hm with e | hm
          · rw [e]; exact ⟨_, hr⟩
          · exact ih hm
      exact hnew o' ho'
    · intro o l hl
      obtain ⟨n, hn⟩ := h3 o l hl
      refine ⟨n, ?_⟩
      have : ob.tgt ≠ n := by rintro rfl; rw [hnone] at hn; cases hn
      simp [runOps, Core.add, Dict.get_set, this, hn]
  | @has ops m n hs ih =>
    obtain ⟨h1, h2, h3⟩ := ih
    rw [runOps_append]
    simp only [runOps]
    have hobj : (Core.has canon (runOps canon Reg.empty ops) n).1.obj = (runOps canon Reg.empty ops).obj := by
      unfold Core.has; split
      · rfl
      · split <;> rfl
    refine ⟨by unfold NoReRegistration at h1 ⊢; rw [List.filterMap_append]; simpa using h1, ?_, ?_⟩
    · intro o l hl
      rw [hobj]
      refine List.Forall₂.imp (fun d o' hr => ?_) (h2 o l hl)
      rw [← get_ok, has_get hc, get_ok]; exact hr
    · intro o l hl
      obtain ⟨k, hk⟩ := h3 o l hl
      unfold Core.has
      split
      · exact ⟨k, hk⟩
      · rename_i hnn
        split
        · refine ⟨k, ?_⟩
          have : n ≠ k := by rintro rfl; simp [Dict.has, hk] at hnn
          simp [Dict.get_set, this, hk]
        · exact ⟨k, hk⟩
  | @eval ops m m' updIf lim hs he ih =>
    obtain ⟨h1, h2, h3⟩ := ih
    have hn := nodup_runOps (canon := canon) ops Reg.empty (by simp [Reg.empty, Dict.keys])
    exact ⟨h1, (updateNeeds_ok hn h2 he).1, updateNeeds_known hn h2 h3 he⟩

/-- **C72**, what holds: in a session (in which names are registered once, before or between the evaluations, whatever the
spellings looked up) an evaluation marks exactly the targets that are out of date in the registry as it is now: a target is
marked iff its own `update_if`, or that of a target reachable from it, is true now.  Missing: names registered again
(`C72_violated`). -/
theorem C72_partial (hc : Idempotent canon) {ops : List Op} {m m' : Marks} (hs : Session canon ops m)
    (updIf : Nat → Except Err Bool) (lim : Nat)
    (h : updateNeeds canon (runOps canon Reg.empty ops) updIf lim m = .ok m') (o : Nat)
    (hr : Registered (runOps canon Reg.empty ops) o) (hu : ((runOps canon Reg.empty ops).obj o).upd = true) :
    (m'.need o = some true ↔ Stale canon (runOps canon Reg.empty ops) updIf o) ∧
    (m'.need o = some false ↔ ¬ Stale canon (runOps canon Reg.empty ops) updIf o) :=
  (C22_need_iff_stale ops lim m m' (hs.inv hc).2.1 h).2 o hr hu

/-- a session that registers the chain `c <- b <- a` -/
theorem session_chain : Session id chainOps noMarks := by
  have fresh : ∀ (c : Reg) (n : String), c.targets.get n = none → ∀ o, ¬ Resolves id c n o := by
    rintro c n h o (h' | ⟨_, h'⟩)
    · rw [h] at h'; cases h'
    · rw [id, h] at h'; cases h'
  exact (((Session.start.add _ (fresh _ _ rfl)).add _ (fresh _ _ rfl)).add _ (fresh _ _ rfl))

/-- Non-vacuity: `c <- b <- a` is evaluated with only `b` stale; then `d`, which depends on `c`, is registered; the next
evaluation, in which only `a` is stale, marks all of them. -/
example : ∃ m m', Session id (chainOps ++ [.add ⟨"d", ["c"], true, [], "x"⟩]) m ∧
    updateNeeds id (runOps id Reg.empty (chainOps ++ [.add ⟨"d", ["c"], true, [], "x"⟩])) (fun o => .ok (o == 2)) 10 m = .ok m' ∧
    m.cached 0 = some [1] ∧ m.need 3 = none ∧ m'.need 3 = some true ∧ m'.cached 3 = some [0] := by
  refine ⟨_, _, (session_chain.eval chainUpd 10 rfl).add _ ?_, rfl, rfl, rfl, rfl, rfl⟩
  rintro o (h | ⟨_, h⟩) <;> cases h

/-- the cache of `depends_as_set` makes no difference -/
theorem recurseUpdate_cache {setOrder : List Nat → List Nat} {order : Nat → List Nat → List Nat} {lim : Nat} {cache : Cache}
    (hcache : ∀ t b, cache.get (.pair t b) = none) (rt : Option (Option Int)) (self : Nat) (threads : Option Int) :
    recurseUpdate canon c setOrder order lim cache rt self threads =
      recurseUpdate canon c setOrder order lim [] rt self threads := by
  have : ∀ (t : String) (b : Bool), Dict.get ([] : Cache) (.pair t b) = none := fun _ _ => rfl
  unfold recurseUpdate prepare dependsAsSet
  simp only [hcache, this, bind, Except.bind, if_true]
  cases dependsAsSetImpl canon c lim (c.obj self).tgt [(c.obj self).tgt] with
  | error e => rfl
  | ok acc =>
    simp only
    cases (sorted acc).mapM (get canon c) with
    | error e => rfl
    | ok objs =>
      simp only
      cases (setOrder (mkset objs)).mapM (mkDep canon c) <;> rfl

/-- **C30**, what holds: with a configured thread count `k` the default action of an updatable target, in any session, gets
to the workers whenever the closure is registered and acyclic; an execution that returns `True` has called `update` of
exactly the targets of the closure that are out of date, of each once; and with at least one thread every execution in which
nothing is raised goes on until it returns.  Missing: no configured thread count (`C30_violated`). -/
theorem C30_partial (hc : Idempotent canon) {ops : List Op} {m m' : Marks} (hs : Session canon ops m)
    {setOrder : List Nat → List Nat} {order : Nat → List Nat → List Nat} {lim lim' : Nat} {cache : Cache} {self : Nat}
    (hso : ∀ l, (setOrder l).Perm l) (ho : IsOrder order) (hcache : ∀ t b, cache.get (.pair t b) = none)
    (heval : updateNeeds canon (runOps canon Reg.empty ops) updIf lim' m = .ok m')
    (hself : Registered (runOps canon Reg.empty ops) self)
    (hreg : AllRegistered canon (runOps canon Reg.empty ops) ((runOps canon Reg.empty ops).obj self).tgt)
    (hac : ∀ o, Closure canon (runOps canon Reg.empty ops) self o →
      ¬ TransGen (ObjDep canon (runOps canon Reg.empty ops)) o o)
    (hl : (allDeps (runOps canon Reg.empty ops)).length + 1 < lim)
    (hl' : (runOps canon Reg.empty ops).targets.length ≤ lim) (k : Int) :
    ∃ objs ds g,
      recurseUpdateGetArgs canon (runOps canon Reg.empty ops) setOrder order lim cache (some (some k)) self =
        .ok (objs, ds, g, k.toNat) ∧
      ∀ tr s, BuildExec (runOps canon Reg.empty ops) m'.need objs g k.toNat tr s →
        (s.returned → s.verdict = true →
          (updateCalls (runOps canon Reg.empty ops) m'.need objs tr).Nodup ∧
          ∀ o, o ∈ updateCalls (runOps canon Reg.empty ops) m'.need objs tr ↔
            Closure canon (runOps canon Reg.empty ops) self o ∧ Stale canon (runOps canon Reg.empty ops) updIf o) ∧
        (0 < k → (∀ w t, Ev.finish w t .raise ∉ tr) → (∀ e, Solver.step g s e = none) → s.returned) := by
  obtain ⟨h1, h2, _⟩ := hs.inv hc
  obtain ⟨objs, ds, g, h⟩ := C25_accepted ops h1 hso ho hself hreg hac hl hl' (some (some k)) (some k) k rfl
  rw [← recurseUpdate_cache hcache] at h
  refine ⟨objs, ds, g, h, fun tr s hx => ⟨fun hret hv => ?_, fun hk hnr hmax => ?_⟩⟩
  · have := C24_exactly_the_stale ops h1 hso ho hcache updIf lim' m m' h2 heval hself (some (some k)) (some k) g _ h tr s hx
      hret hv
    exact ⟨this.1, this.2.1⟩
  · obtain ⟨_, _, hg, _⟩ := recurseUpdate_ok h
    exact Solver.C07_maximal_returned ho hg (by omega) hx.exec hnr hmax

/-- Non-vacuity: the chain meets the assumptions; `chain_build` is an execution for it, in which `b` is stale and `update` of
`b` and `c` is called. -/
example : Session id chainOps noMarks ∧ AllRegistered id (runOps id Reg.empty chainOps) "c" ∧
    (∀ o, Closure id (runOps id Reg.empty chainOps) 0 o → ¬ TransGen (ObjDep id (runOps id Reg.empty chainOps)) o o) ∧
    (allDeps (runOps id Reg.empty chainOps)).length + 1 < 10 ∧ (runOps id Reg.empty chainOps).targets.length ≤ 10 := by
  have hreg : AllRegistered id (runOps id Reg.empty chainOps) "c" := by
    have h : dependsAsSet id (runOps id Reg.empty chainOps) 10 [] "c" true =
      .ok (["a", "b", "c"], [(.plain "c", ["a", "b", "c"])]) := rfl
    exact (closure_spec 10 [] _ "c" true _ (by simp) h).2.1
  have hac : ∀ o, Closure id (runOps id Reg.empty chainOps) 0 o →
      ¬ TransGen (ObjDep id (runOps id Reg.empty chainOps)) o o := by
    intro o h1 h2
    obtain ⟨e, he⟩ := C26_cyclic_runs_nothing (canon := id) (setOrder := id) (order := Solver.idOrder) (lim := 10) (cache := [])
      (self := 0) chainOps (by unfold NoReRegistration; decide) (fun l => .refl l) Solver.idOrder_isOrder (fun _ _ => rfl) ⟨"c", rfl⟩
      ⟨o, h1, h2⟩ none (some 1)
    rw [chain_prepared] at he
    cases he
  exact ⟨session_chain, hreg, hac, by decide +kernel, by decide +kernel⟩

end Licant.Core
