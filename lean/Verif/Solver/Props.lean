/-
Properties C01-C16: the dependency solver (licant/solver.py).

Vocabulary: `construct order lim ts = .ok g` says that `InverseRecursiveSolver(ts, n)` was
constructed (with hash-order `order` and recursion limit `lim`); `Exec g n tr s` that
`exec()` with `n` worker threads can perform the events `tr` and be in state `s` then.
`DependsOn`, `Denotes`, `Cyclic`, `Closed`, `HasRoot` are specified in Spec.lean from
the list of targets alone.
-/
import Verif.Solver.Construct

set_option autoImplicit false

namespace Licant.Solver
open Licant.Py Relation

variable {order : Nat → List Nat → List Nat} {lim n : Nat} {ts : List DTarget} {g : Graph}
  {tr : List Ev} {s : St}

/-! ### auxiliary -/

theorem accepted (ho : IsOrder order) (h : construct order lim ts = .ok g) :
    Closed ts ∧ HasRoot ts ∧ ¬ Cyclic ts ∧ g.size = ts.length ∧
    ∃ dep, WF g dep ∧ ∀ i j, j ∈ dep i ↔ DependsOn ts i j := by
  by_cases hc : Closed ts
  · obtain ⟨inv, dep, P⟩ := prep ho hc
    rw [P.cons] at h
    split at h
    · cases h
    · rename_i hr
      rw [noRoot_iff, not_not] at hr
      have hcon := P.connectivity lim
      cases hcc : connectivityCheck inv lim ts.length (nonDependable ts) with
      | error e => rw [hcc] at h; cases h
      | ok u =>
        rw [hcc] at h
        have hac := hcon.1 hcc
        cases h
        exact ⟨hc, hr, hac, rfl, dep, P.wf hac, P.mem_dep⟩
  · obtain ⟨nm, h1, _⟩ := construct_unknown (order := order) (lim := lim) hc
    rw [h1] at h; cases h

theorem Exec.at (h : Exec g n tr s) : ∀ pre e post, tr = pre ++ e :: post →
    ∃ s1 s2, Exec g n pre s1 ∧ step g s1 e = some s2 ∧ Exec g n (pre ++ [e]) s2 := by
  intro pre e post htr
  obtain ⟨s2, h2⟩ := h.prefix (pre ++ [e]) post (by rw [htr]; simp)
  generalize hp : pre ++ [e] = l at h2
  cases h2 with
  | init => simp at hp
  | @snoc tr' s1 e' _ hx hst =>
    have h3 := List.append_inj' hp rfl
    obtain ⟨rfl, h4⟩ := h3
    simp at h4; subst h4
    exact ⟨s1, s2, hx, hst, by rw [hp]; exact .snoc hx hst⟩

/-- the state after `start w t` -/
def afterStart (s : St) (w t : Nat) (q : List Nat) : St :=
  { s with queue := q, onBase := s.onBase.set w false, ws := s.ws.set w (.run t) }

theorem step_start {w t : Nat} {q : List Nat} (hw : s.ws[w]? = some WS.idle)
    (hq : s.queue = t :: q) (he : s.error = false) (hu : s.unfinished ≠ 0) :
    step g s (.start w t) = some (afterStart s w t q) := by
  simp only [step, hw, hq]
  simp only [he, hu, ne_eq, not_false_eq_true, and_self, if_true, afterStart]

theorem dep_lt_of_started (ho : IsOrder order) (h : construct order lim ts = .ok g)
    (hx : Exec g n tr s) {w t : Nat} (hs : Ev.start w t ∈ tr) {d : Nat} (hd : DependsOn ts t d) :
    ∃ w', Ev.finish w' d .ok ∈ tr := by
  obtain ⟨_, _, _, _, dep, hwf, hdep⟩ := accepted ho h
  exact (inv_of_exec hwf hx).depsOk t (mem_starts.2 ⟨w, hs⟩) d ((hdep t d).2 hd)

/-! ### a concrete graph, used to show that hypotheses can be met -/

/-- b and c depend on a, d on b and c -/
def diamond : List DTarget :=
  [⟨"a", []⟩, ⟨"b", ["a"]⟩, ⟨"c", ["a"]⟩, ⟨"d", ["b", "c", "b"]⟩]

def idOrder : Nat → List Nat → List Nat := fun _ l => l

theorem idOrder_isOrder : IsOrder idOrder := fun _ _ => .refl _

/-- what the constructor makes of it -/
def diamondG : Graph where
  size := 4
  depcount := fun i => ((diamond[i]?).map (fun t => t.deps.length)).getD 0
  inv := fun i => ((Dict.get [(0, [1, 2]), (1, [3]), (2, [3]), (3, [])] i).getD [])
  roots := [0]

theorem diamond_accepted : construct idOrder 10 diamond = .ok diamondG := rfl

/-- run a list of events -/
def runEvs (g : Graph) : St → List Ev → Option St
  | s, [] => some s
  | s, e :: es => (step g s e).bind fun s' => runEvs g s' es

theorem exec_of_run {g : Graph} {n : Nat} : ∀ (es tr : List Ev) (s s' : St), Exec g n tr s →
    runEvs g s es = some s' → Exec g n (tr ++ es) s' := by
  intro es
  induction es with
  | nil => intro tr s s' h hr; simp [runEvs] at hr; subst hr; simpa using h
  | cons e es ih =>
    intro tr s s' h hr
    simp only [runEvs] at hr
    cases hst : step g s e with
    | none => rw [hst] at hr; simp at hr
    | some s1 =>
      rw [hst] at hr
      have := ih (tr ++ [e]) s1 s' (.snoc h hst) hr
      simpa using this

/-- a run of the diamond with two workers in which everything succeeds -/
def diamondOk : List Ev :=
  [.start 0 0, .finish 0 0 .ok, .start 1 1, .start 0 2, .finish 1 1 .ok, .finish 0 2 .ok,
   .start 1 3, .finish 1 3 .ok]

/-- the same with a failure of "c" -/
def diamondFail : List Ev :=
  [.start 0 0, .finish 0 0 .ok, .start 1 1, .start 0 2, .finish 0 2 .fail, .finish 1 1 .ok]

/-- and with an exception in "c" -/
def diamondRaise : List Ev :=
  [.start 0 0, .finish 0 0 .ok, .start 1 1, .start 0 2, .finish 0 2 .raise, .finish 1 1 .ok]

theorem run_exec {g : Graph} {n : Nat} (es : List Ev) (p : St → Prop)
    (h : ∃ s, runEvs g (init g n) es = some s ∧ p s) : ∃ s, Exec g n es s ∧ p s := by
  obtain ⟨s, h1, h2⟩ := h
  exact ⟨s, by simpa using exec_of_run es [] _ _ .init h1, h2⟩

theorem diamondOk_exec : ∃ s, Exec diamondG 2 diamondOk s ∧ s.returned ∧ s.verdict = true :=
  run_exec _ _ ⟨_, rfl, rfl, rfl⟩

theorem diamondFail_exec : ∃ s, Exec diamondG 2 diamondFail s ∧ s.returned ∧ s.verdict = false :=
  run_exec _ _ ⟨_, rfl, rfl, rfl⟩

theorem diamondRaise_exec : ∃ s, Exec diamondG 2 diamondRaise s ∧ s.unfinished = 1 :=
  run_exec _ _ ⟨_, rfl, rfl⟩

theorem diamond_dep : DependsOn diamond 3 1 ∧ DependsOn diamond 1 0 ∧ DependsOn diamond 3 2 ∧
    DependsOn diamond 2 0 := by
  have h := @accepted idOrder 10 diamond diamondG idOrder_isOrder diamond_accepted
  have den : ∀ nm j, (namesToDeptargets diamond).get nm = some j → Denotes diamond nm j :=
    fun nm j hh => (names_get diamond nm j).1 hh
  exact ⟨⟨_, "b", rfl, by decide, den _ _ rfl⟩, ⟨_, "a", rfl, by decide, den _ _ rfl⟩,
    ⟨_, "c", rfl, by decide, den _ _ rfl⟩, ⟨_, "a", rfl, by decide, den _ _ rfl⟩⟩

/-! ### C01 -/

/-- C01: when the work of `t` starts, the work of each dependency `d` has returned before,
and not `False`. -/
theorem C01_dependencies_first (ho : IsOrder order) (h : construct order lim ts = .ok g)
    (hx : Exec g n tr s) (pre post : List Ev) (w t d : Nat) (htr : tr = pre ++ .start w t :: post)
    (hd : DependsOn ts t d) : ∃ w', Ev.finish w' d .ok ∈ pre := by
  obtain ⟨s1, s2, h1, _, h3⟩ := hx.at pre _ post htr
  obtain ⟨w', hw'⟩ := dep_lt_of_started ho h h3 (w := w) (t := t) (by simp) hd
  exact ⟨w', by simpa using hw'⟩

example : ∃ s pre post, Exec diamondG 2 (pre ++ .start 1 3 :: post) s ∧ DependsOn diamond 3 2 ∧
    Ev.finish 0 2 .ok ∈ pre := by
  obtain ⟨s, h, _⟩ := diamondOk_exec
  exact ⟨s, diamondOk.take 6, diamondOk.drop 7, h, diamond_dep.2.2.1, by decide⟩

/-! ### C02 -/

theorem nodup_filterMap_pos {α β : Type*} (f : α → Option β) (l : List α)
    (hn : (l.filterMap f).Nodup) (i j : Nat) (a b : α) (x : β) (hi : l[i]? = some a)
    (hj : l[j]? = some b) (ha : f a = some x) (hb : f b = some x) : i = j := by
  induction l generalizing i j with
  | nil => simp at hi
  | cons c l ih =>
    have hmem : ∀ (k : Nat) (y : α), l[k]? = some y → f y = some x → x ∈ l.filterMap f := by
      intro k y hk hy; exact List.mem_filterMap.2 ⟨y, List.mem_of_getElem? hk, hy⟩
    cases i with
    | zero =>
      simp at hi; subst hi
      cases j with
      | zero => rfl
      | succ j =>
        simp at hj
        rw [List.filterMap_cons_some ha] at hn
        exact absurd (hmem j b hj hb) (List.nodup_cons.1 hn).1
    | succ i =>
      simp at hi
      cases j with
      | zero =>
        simp at hj; subst hj
        rw [List.filterMap_cons_some hb] at hn
        exact absurd (hmem i a hi ha) (List.nodup_cons.1 hn).1
      | succ j =>
        simp at hj
        have hn' : (l.filterMap f).Nodup := by
          cases hc : f c with
          | none => rwa [List.filterMap_cons_none hc] at hn
          | some y => rw [List.filterMap_cons_some hc] at hn; exact (List.nodup_cons.1 hn).2
        rw [ih hn' i j hi hj]

/-- C02: the work of a target is started at most once and ends at most once; it ends only
in the worker that started it, after it was started. -/
theorem C02_at_most_once (ho : IsOrder order) (h : construct order lim ts = .ok g)
    (hx : Exec g n tr s) (t : Nat) :
    (∀ (i j w w' : Nat), tr[i]? = some (.start w t) → tr[j]? = some (.start w' t) → i = j) ∧
    (∀ (i j w w' : Nat) (r r' : Ret),
      tr[i]? = some (.finish w t r) → tr[j]? = some (.finish w' t r') → i = j) ∧
    (∀ pre post w r, tr = pre ++ .finish w t r :: post → ∃ w', Ev.start w' t ∈ pre) := by
  obtain ⟨_, _, _, _, dep, hwf, _⟩ := accepted ho h
  have I := inv_of_exec hwf hx
  refine ⟨?_, ?_, ?_⟩
  · intro i j w w' hi hj
    exact nodup_filterMap_pos _ tr I.startsNodup i j (.start w t) (.start w' t) t hi hj rfl rfl
  · intro i j w w' r r' hi hj
    exact nodup_filterMap_pos _ tr I.endsNodup i j (.finish w t r) (.finish w' t r') t hi hj rfl rfl
  · intro pre post w r htr
    obtain ⟨s1, s2, _, _, h3⟩ := hx.at pre _ post htr
    have := (inv_of_exec hwf h3).endsStarted t (mem_ends.2 ⟨w, r, by simp⟩)
    obtain ⟨w', hw'⟩ := mem_starts.1 this
    exact ⟨w', by simpa using hw'⟩

example : ∃ s, Exec diamondG 2 diamondOk s ∧ diamondOk[6]? = some (.start 1 3) := by
  obtain ⟨s, h, _⟩ := diamondOk_exec
  exact ⟨s, h, rfl⟩

/-! ### C03, C15 -/

theorem all_done (ho : IsOrder order) (h : construct order lim ts = .ok g)
    (hx : Exec g n tr s) (hret : s.returned) (herr : s.error = false) :
    ∀ i < ts.length, ∃ w, Ev.finish w i .ok ∈ tr := by
  obtain ⟨_, _, hac, hsz, dep, hwf, hdep⟩ := accepted ho h
  have I := inv_of_exec hwf hx
  have hu := I.unf
  rw [show s.unfinished = 0 from hret] at hu
  have hq : s.queue = [] := List.length_eq_zero_iff.1 (by omega)
  have hb : s.ws.countP WS.busy = 0 := by omega
  have hnb : ∀ (w : Nat) x, s.ws[w]? = some x → x.busy = false := by
    intro w x hw
    rw [List.countP_eq_zero] at hb
    simpa using hb x (List.mem_of_getElem? hw)
  obtain ⟨rk, hrk⟩ := hwf.rank
  have key : ∀ m i, rk i ≤ m → i < g.size → ∃ w, Ev.finish w i .ok ∈ tr := by
    intro m
    induction m using Nat.strong_induction_on with
    | _ m ih =>
      intro i hm hi
      have hdone : ∀ j ∈ dep i, s.done j = true := by
        intro j hj
        have hlt := hrk i hi j hj
        obtain ⟨w, hw⟩ := ih (rk j) (by omega) j (le_refl _) (hwf.lt i hi j hj)
        exact (I.doneIff j).2 (Or.inl ⟨w, hw⟩)
      have hc0 : s.count i = 0 := by
        rw [I.cnt i hi]
        have : (dep i).filter (fun j => !s.done j) = [] := by
          rw [List.filter_eq_nil_iff]; intro j hj; simp [hdone j hj]
        rw [this]; rfl
      rcases I.ready herr i hi hc0 with hq' | hst
      · rw [hq] at hq'; simp at hq'
      · rcases I.startedWhere i hst with he | ⟨w, hw⟩
        · obtain ⟨w, r, hr⟩ := mem_ends.1 he
          cases r with
          | ok => exact ⟨w, hr⟩
          | fail =>
            have := I.errIff.2 ⟨w, i, hr⟩
            rw [herr] at this; simp at this
          | raise =>
            obtain ⟨w', hw'⟩ := I.raised.1 ⟨w, i, hr⟩
            have := hnb w' _ hw'
            simp [WS.busy] at this
        · have := hnb w _ hw
          simp [WS.busy] at this
  intro i hi
  exact key (rk i) i (le_refl _) (by rw [hsz]; exact hi)

/-- C03: if `exec()` returns `True`, every target was started and returned (exactly once by
C02), none returned `False` or raised, and the assertions of `exec` hold. -/
theorem C03_true_means_all_done (ho : IsOrder order) (h : construct order lim ts = .ok g)
    (hx : Exec g n tr s) (hret : s.returned) (hv : s.verdict = true) :
    (∀ i < ts.length, (∃ w, Ev.start w i ∈ tr) ∧ ∃ w, Ev.finish w i .ok ∈ tr) ∧
    (∀ w i r, Ev.finish w i r ∈ tr → r = .ok) ∧ s.assertionsHold g := by
  have herr : s.error = false := by simpa [St.verdict] using hv
  have hall := all_done ho h hx hret herr
  obtain ⟨_, _, _, hsz, dep, hwf, hdep⟩ := accepted ho h
  have I := inv_of_exec hwf hx
  have hu := I.unf
  rw [show s.unfinished = 0 from hret] at hu
  have hdone : ∀ i < g.size, s.done i = true := fun i hi => by
    obtain ⟨w, hw⟩ := hall i (by rw [← hsz]; exact hi)
    exact (I.doneIff i).2 (Or.inl ⟨w, hw⟩)
  refine ⟨?_, ?_, ?_, ?_, hdone⟩
  · intro i hi
    obtain ⟨w, hw⟩ := hall i hi
    exact ⟨mem_starts.1 (I.endsStarted i (mem_ends.2 ⟨w, .ok, hw⟩)), w, hw⟩
  · intro w i r hr
    cases r with
    | ok => rfl
    | fail =>
      have := I.errIff.2 ⟨w, i, hr⟩
      rw [herr] at this; simp at this
    | raise =>
      obtain ⟨w', hw'⟩ := I.raised.1 ⟨w, i, hr⟩
      have hb : s.ws.countP WS.busy = 0 := by omega
      rw [List.countP_eq_zero] at hb
      have := hb _ (List.mem_of_getElem? hw')
      simp [WS.busy] at this
  · exact List.length_eq_zero_iff.1 (by omega)
  · intro i hi
    rw [I.cnt i hi]
    have : (dep i).filter (fun j => !s.done j) = [] := by
      rw [List.filter_eq_nil_iff]; intro j hj; simp [hdone j (hwf.lt i hi j hj)]
    rw [this]; rfl

example : ∃ s, Exec diamondG 2 diamondOk s ∧ s.returned ∧ s.verdict = true := diamondOk_exec

/-- C15: in every reachable state the dependency counters are non-negative (the assertion of
`decrease_inverse_deps_count`), the number of unfinished queue items is exactly the number of
queued plus taken-and-unfinished ones and hence never negative (`task_done` is not called too
often), no worker ever dies except by an exception of a work function, and when `exec()`
returns without error its assertions hold. -/
theorem C15_assertions (ho : IsOrder order) (h : construct order lim ts = .ok g)
    (hx : Exec g n tr s) :
    (∀ i < ts.length, 0 ≤ s.count i) ∧ (s.queue.length : Int) ≤ s.unfinished ∧
    ((∃ w : Nat, s.ws[w]? = some .dead) → ∃ w t, Ev.finish w t .raise ∈ tr) ∧
    (s.returned → s.error = false → s.assertionsHold g) := by
  obtain ⟨_, _, _, hsz, dep, hwf, hdep⟩ := accepted ho h
  have I := inv_of_exec hwf hx
  refine ⟨?_, ?_, I.raised.2, ?_⟩
  · intro i hi; rw [I.cnt i (by rw [hsz]; exact hi)]; omega
  · have := I.unf; omega
  · intro hr he
    exact (C03_true_means_all_done ho h hx hr (by simp [St.verdict, he])).2.2

example : ∃ s, Exec diamondG 2 (diamondOk.take 3) s ∧ s.count 3 = 2 ∧ s.unfinished = 2 :=
  run_exec _ _ ⟨_, rfl, rfl, rfl⟩

/-! ### C04, C05 -/

/-- C04: after a work function has returned `False` no work function is started, and
`exec()`, if it returns, returns `False`. -/
theorem C04_failure_stops (ho : IsOrder order) (h : construct order lim ts = .ok g)
    (hx : Exec g n tr s) (w t : Nat) :
    (∀ pre post, tr = pre ++ .finish w t .fail :: post → ∀ w' t', Ev.start w' t' ∉ post) ∧
    (Ev.finish w t .fail ∈ tr → s.verdict = false) := by
  obtain ⟨_, _, _, _, dep, hwf, _⟩ := accepted ho h
  refine ⟨?_, ?_⟩
  · intro pre post htr w' t' hmem
    obtain ⟨a, b, rfl⟩ := List.append_of_mem hmem
    obtain ⟨s1, s2, h1, h2, _⟩ := hx.at (pre ++ .finish w t .fail :: a) (.start w' t') b
      (by rw [htr]; simp)
    have he := (inv_of_exec hwf h1).errIff.2 ⟨w, t, by simp⟩
    simp only [step] at h2
    split at h2
    · split at h2
      · rename_i hc; rw [he] at hc; simp at hc
      · simp at h2
    · simp at h2
  · intro hmem
    have := (inv_of_exec hwf hx).errIff.2 ⟨w, t, hmem⟩
    simp [St.verdict, this]

example : ∃ s pre post, Exec diamondG 2 (pre ++ .finish 0 2 .fail :: post) s ∧ s.returned := by
  obtain ⟨s, h, hr, _⟩ := diamondFail_exec
  exact ⟨s, diamondFail.take 4, diamondFail.drop 5, h, hr⟩

/-- C05: what depends, directly or not, on a target whose work returned `False` (or raised) is
never started. -/
theorem C05_dependents_of_failed (ho : IsOrder order) (h : construct order lim ts = .ok g)
    (hx : Exec g n tr s) (w t u : Nat) (r : Ret) (hr : r ≠ .ok)
    (hf : Ev.finish w t r ∈ tr) (hu : TransGen (DependsOn ts) u t) (w' : Nat) :
    Ev.start w' u ∉ tr := by
  have hone := C02_at_most_once ho h hx t
  have key : ∀ u, TransGen (DependsOn ts) u t → ∀ w', Ev.start w' u ∈ tr →
      ∃ w, Ev.finish w t .ok ∈ tr := by
    intro u hu
    induction hu using TransGen.head_induction_on with
    | single hd => intro w' hs; exact dep_lt_of_started ho h hx hs hd
    | head hd _ ih =>
      intro w' hs
      obtain ⟨w2, hw2⟩ := dep_lt_of_started ho h hx hs hd
      obtain ⟨a, b, hab⟩ := List.append_of_mem hw2
      obtain ⟨w3, hw3⟩ := (C02_at_most_once ho h hx _).2.2 a b w2 .ok hab
      exact ih w3 (by rw [hab]; simp [hw3])
  intro hs
  obtain ⟨w2, hw2⟩ := key u hu w' hs
  obtain ⟨i, hi⟩ := List.getElem?_of_mem hf
  obtain ⟨j, hj⟩ := List.getElem?_of_mem hw2
  have := hone.2.1 i j w w2 r .ok hi hj
  subst this
  rw [hi] at hj
  simp at hj
  exact hr hj.2

example : ∃ s, Exec diamondG 2 diamondFail s ∧ Ev.finish 0 2 .fail ∈ diamondFail ∧
    TransGen (DependsOn diamond) 3 2 := by
  obtain ⟨s, h, _⟩ := diamondFail_exec
  exact ⟨s, h, by decide, .single diamond_dep.2.2.1⟩

/-! ### C06 -/

/-- The results in `tr` are those of the function `out`. -/
def Follows (out : Nat → Ret) (tr : List Ev) : Prop :=
  ∀ w t r, Ev.finish w t r ∈ tr → r = out t

/-- C06: if `exec()` returns, the value is determined by the results of the work functions:
`True` iff none of the targets returns `False`.  (If one raises, `exec()` does not return, C08.) -/
theorem C06_verdict (ho : IsOrder order) (h : construct order lim ts = .ok g)
    (out : Nat → Ret)
    (hx : Exec g n tr s) (hf : Follows out tr) (hret : s.returned) :
    s.verdict = true ↔ ∀ t < ts.length, out t ≠ .fail := by
  obtain ⟨_, _, _, hsz, dep, hwf, _⟩ := accepted ho h
  constructor
  · intro hv t ht hfail
    obtain ⟨h1, h2, _⟩ := C03_true_means_all_done ho h hx hret hv
    obtain ⟨_, w, hw⟩ := h1 t ht
    have := hf w t .ok hw
    rw [hfail] at this; simp at this
  · intro hall
    cases he : s.error with
    | false => simp [St.verdict, he]
    | true =>
      obtain ⟨w, t, hw⟩ := (inv_of_exec hwf hx).errIff.1 he
      have h1 := hf w t .fail hw
      have h2 := (inv_of_exec hwf hx).startedLt t
        ((inv_of_exec hwf hx).endsStarted t (mem_ends.2 ⟨w, .fail, hw⟩))
      exact absurd h1.symm (hall t (by rw [← hsz]; exact h2))

/-- C06, as schedule independence: any two executions (with any thread counts and any set
iteration orders) that return, return the same value. -/
theorem C06_schedule_independent {order' : Nat → List Nat → List Nat} {lim' n' : Nat} {g' : Graph}
    {tr' : List Ev} {s' : St} (ho : IsOrder order) (ho' : IsOrder order')
    (h : construct order lim ts = .ok g) (h' : construct order' lim' ts = .ok g')
    (out : Nat → Ret)
    (hx : Exec g n tr s) (hf : Follows out tr) (hret : s.returned)
    (hx' : Exec g' n' tr' s') (hf' : Follows out tr') (hret' : s'.returned) :
    s.verdict = s'.verdict := by
  rw [Bool.eq_iff_iff, C06_verdict ho h out hx hf hret,
    C06_verdict ho' h' out hx' hf' hret']

example : ∃ s, Exec diamondG 2 diamondFail s ∧ s.returned ∧
    Follows (fun t => if t = 2 then .fail else .ok) diamondFail := by
  obtain ⟨s, h, hr, _⟩ := diamondFail_exec
  refine ⟨s, h, hr, ?_⟩
  intro w t r hmem
  simp [diamondFail] at hmem
  rcases hmem with ⟨rfl, rfl, rfl⟩ | ⟨rfl, rfl, rfl⟩ | ⟨rfl, rfl, rfl⟩ <;> rfl

/-! ### C07, C08, C10 -/

/-- the number of events is bounded -/
theorem length_bound (ho : IsOrder order) (h : construct order lim ts = .ok g)
    (hx : Exec g n tr s) : tr.length ≤ 2 * ts.length := by
  obtain ⟨_, _, _, hsz, dep, hwf, _⟩ := accepted ho h
  have I := inv_of_exec hwf hx
  have h1 : ∀ l : List Ev, (∀ e ∈ l, (∃ w t, e = .start w t) ∨ (∃ w t r, e = .finish w t r)) →
      l.length = (starts l).length + (ends l).length := by
    intro l
    induction l with
    | nil => intro _; rfl
    | cons e l ih =>
      intro hl
      have := ih (fun x hx => hl x (by simp [hx]))
      rcases hl e (by simp) with ⟨w, t, rfl⟩ | ⟨w, t, r, rfl⟩ <;>
        simp_all [starts, ends] <;> omega
  have h2 : (starts tr).length ≤ g.size := by
    have := (I.startsNodup.subperm (l₂ := List.range g.size)
      (fun t ht => by simpa using I.startedLt t ht)).length_le
    simpa using this
  have h3 : (ends tr).length ≤ g.size := by
    have := (I.endsNodup.subperm (l₂ := List.range g.size)
      (fun t ht => by simpa using I.startedLt t (I.endsStarted t ht))).length_le
    simpa using this
  rw [h1 tr I.evs]; omega

/-- C07: with at least one worker and no exception, as long as `exec()` has not returned a
worker can take a queued target, or a running work function can end (and whatever it
returns is handled); the number of events is at most twice the number of targets.  Hence no
execution goes on for ever and none gets stuck before `exec()` returns. -/
theorem C07_terminates (ho : IsOrder order) (h : construct order lim ts = .ok g) (hn : 0 < n)
    (hx : Exec g n tr s) :
    tr.length ≤ 2 * ts.length ∧
    ((∀ w t, Ev.finish w t .raise ∉ tr) → ¬ s.returned →
      (∃ w t s', step g s (.start w t) = some s') ∨
      (∃ w t, (∃ w', Ev.start w' t ∈ tr) ∧ (∀ w' r, Ev.finish w' t r ∉ tr) ∧
        ∀ r, ∃ s', step g s (.finish w t r) = some s')) := by
  refine ⟨length_bound ho h hx, ?_⟩
  intro hnr hnret
  obtain ⟨_, _, _, hsz, dep, hwf, _⟩ := accepted ho h
  have I := inv_of_exec hwf hx
  have hu0 : s.unfinished ≠ 0 := hnret
  have hnd : ∀ w : Nat, s.ws[w]? ≠ some WS.dead := by
    intro w hw
    obtain ⟨w', t, hr⟩ := I.raised.2 ⟨w, hw⟩
    exact hnr w' t hr
  by_cases hrun : ∃ w t : Nat, s.ws[w]? = some (WS.run t)
  · obtain ⟨w, t, hw⟩ := hrun
    right
    have hrs := I.runs w t hw
    refine ⟨w, t, mem_starts.1 hrs.1, fun w' r hmem => hrs.2 (mem_ends.2 ⟨w', r, hmem⟩), ?_⟩
    intro r
    by_cases hr : r = .raise
    · subst hr; exact ⟨_, by simp only [step, if_pos (And.intro hw hu0)]; rfl⟩
    · exact ⟨_, step_finish I hwf hr hw hu0⟩
  · left
    have hb : s.ws.countP WS.busy = 0 := by
      rw [List.countP_eq_zero]
      intro x hx hbx
      obtain ⟨w, hw⟩ := List.getElem?_of_mem hx
      cases x with
      | run t => exact hrun ⟨w, t, hw⟩
      | dead => exact hnd w hw
      | idle => simp [WS.busy] at hbx
      | release => simp [WS.busy] at hbx
    have hu := I.unf
    have hq : s.queue ≠ [] := by intro hq; rw [hq] at hu; simp at hu; omega
    have herr : s.error = false := by
      cases he : s.error with
      | false => rfl
      | true => exact absurd (I.errQueue he) hq
    have hw0 : ∃ x, s.ws[0]? = some x := by
      refine ⟨s.ws[0]'(by rw [I.lenW]; exact hn), List.getElem?_eq_getElem _⟩
    obtain ⟨x, hx0⟩ := hw0
    have hidle : x = .idle := by
      cases x with
      | run t => exact absurd ⟨0, t, hx0⟩ hrun
      | dead => exact absurd hx0 (hnd 0)
      | idle => rfl
      | release => exact absurd (I.rel herr ⟨0, hx0⟩) hu0
    subst hidle
    cases hqq : s.queue with
    | nil => exact absurd hqq hq
    | cons t q =>
      exact ⟨0, t, _, step_start hx0 hqq herr hu0⟩

/-- C07, corollary: an execution without exceptions that cannot be continued has returned. -/
theorem C07_maximal_returned (ho : IsOrder order) (h : construct order lim ts = .ok g) (hn : 0 < n)
    (hx : Exec g n tr s) (hnr : ∀ w t, Ev.finish w t .raise ∉ tr)
    (hmax : ∀ e, step g s e = none) : s.returned := by
  by_contra hc
  rcases (C07_terminates ho h hn hx).2 hnr hc with ⟨w, t, s', hs⟩ | ⟨w, t, _, _, hs⟩
  · rw [hmax] at hs; cases hs
  · obtain ⟨s', hs⟩ := hs .ok; rw [hmax] at hs; cases hs

example : ∃ s, Exec diamondG 1 [] s ∧ ¬ s.returned ∧ ∃ s', step diamondG s (.start 0 0) = some s' :=
  ⟨_, .init, by simp [St.returned, init, diamondG], _, rfl⟩

/-- C08 is violated: in no execution in which a work function raised does `exec()` ever
return (the executions being finite by C07, it waits for ever). -/
theorem C08_violated (ho : IsOrder order) (h : construct order lim ts = .ok g)
    (hx : Exec g n tr s) (w t : Nat) (hr : Ev.finish w t .raise ∈ tr) : ¬ s.returned := by
  obtain ⟨_, _, _, _, dep, hwf, _⟩ := accepted ho h
  have I := inv_of_exec hwf hx
  obtain ⟨w', hw'⟩ := I.raised.1 ⟨w, t, hr⟩
  intro hret
  have hu := I.unf
  rw [show s.unfinished = 0 from hret] at hu
  have hb : s.ws.countP WS.busy = 0 := by omega
  rw [List.countP_eq_zero] at hb
  have := hb _ (List.mem_of_getElem? hw')
  simp [WS.busy] at this

/-- ... and every accepted list has such an execution with any number of threads ≥ 1. -/
theorem C08_violation_reachable (ho : IsOrder order) (h : construct order lim ts = .ok g)
    (hn : 0 < n) : ∃ w t tr s, Exec g n tr s ∧ Ev.finish w t .raise ∈ tr := by
  obtain ⟨_, ⟨t0, ht0, hd0⟩, _, hsz, dep, hwf, hdep⟩ := accepted ho h
  obtain ⟨i, hi⟩ := List.getElem?_of_mem ht0
  have hiroot : i ∈ g.roots := by
    rw [hwf.mem_roots, hsz]
    constructor
    · rcases Nat.lt_or_ge i ts.length with h' | h'
      · exact h'
      · rw [List.getElem?_eq_none h'] at hi; simp at hi
    · rw [List.eq_nil_iff_forall_not_mem]
      intro j hj
      obtain ⟨t', nm, h1, h2, _⟩ := (hdep i j).1 hj
      rw [hi] at h1; cases h1
      rw [hd0] at h2; simp at h2
  cases hr : g.roots with
  | nil => rw [hr] at hiroot; simp at hiroot
  | cons r rs =>
    have hx0 : Exec g n [] (init g n) := .init
    have hnr : ¬ (init g n).returned := by simp [St.returned, init, hr]; omega
    have hw0 : (init g n).ws[0]? = some WS.idle := by simp [init, hn]
    have hst : ∃ s', step g (init g n) (.start 0 r) = some s' := by
      have hq : (init g n).queue = r :: rs := hr
      have he : (init g n).error = false := rfl
      have hu : (init g n).unfinished ≠ 0 := hnr
      exact ⟨_, step_start hw0 hq he hu⟩
    obtain ⟨s', hs'⟩ := hst
    have hx1 : Exec g n [.start 0 r] s' := by simpa using Exec.snoc hx0 hs'
    have I := inv_of_exec hwf hx1
    have hnret : ¬ s'.returned := by
      intro hret
      have hu := I.unf
      rw [show s'.unfinished = 0 from hret] at hu
      rcases I.startedWhere r (by simp [starts]) with he | ⟨w, hw⟩
      · simp [ends] at he
      · have hb : s'.ws.countP WS.busy = 0 := by omega
        rw [List.countP_eq_zero] at hb
        have := hb _ (List.mem_of_getElem? hw)
        simp [WS.busy] at this
    rcases (C07_terminates ho h hn hx1).2 (by simp) hnret with ⟨w, t, s2, h2⟩ | ⟨w, t, _, _, h2⟩
    · -- go on with the running one anyway
      rcases I.startedWhere r (by simp [starts]) with he | ⟨w', hw'⟩
      · simp [ends] at he
      · have hc : s'.ws[w']? = some (WS.run r) ∧ s'.unfinished ≠ 0 := ⟨hw', hnret⟩
        have hfin : step g s' (.finish w' r .raise) = some { s' with ws := s'.ws.set w' .dead } := by
          simp only [step, if_pos hc]
        exact ⟨w', r, _, _, Exec.snoc hx1 hfin, by simp⟩
    · obtain ⟨s2, h2⟩ := h2 .raise
      exact ⟨w, t, _, _, Exec.snoc hx1 h2, by simp⟩

/-- C08, what holds: without exceptions `exec()` finishes (C07); and after an exception the
other workers still only do bounded work. -/
theorem C08_partial (ho : IsOrder order) (h : construct order lim ts = .ok g) (hn : 0 < n)
    (hx : Exec g n tr s) (hmax : ∀ e, step g s e = none) :
    s.returned ↔ ∀ w t, Ev.finish w t .raise ∉ tr :=
  ⟨fun hr w t hm => C08_violated ho h hx w t hm hr,
   fun hnr => C07_maximal_returned ho h hn hx hnr hmax⟩

example : ∃ s, Exec diamondG 2 diamondRaise s ∧ Ev.finish 0 2 .raise ∈ diamondRaise := by
  obtain ⟨s, h, _⟩ := diamondRaise_exec
  exact ⟨s, h, by decide⟩

/-- C10 is violated: with no worker nothing ever happens and `exec()` never returns. -/
theorem C10_violated (ho : IsOrder order) (h : construct order lim ts = .ok g)
    (hx : Exec g 0 tr s) : tr = [] ∧ ¬ s.returned ∧ ∀ e, step g s e = none := by
  obtain ⟨hcl, ⟨t0, ht0, hd0⟩, _, hsz, dep, hwf, hdep⟩ := accepted ho h
  have I := inv_of_exec hwf hx
  have hws : s.ws = [] := List.length_eq_zero_iff.1 I.lenW
  have htr : tr = [] := by
    rw [List.eq_nil_iff_forall_not_mem]
    intro e he
    rcases I.evs e he with ⟨w, t, rfl⟩ | ⟨w, t, r, rfl⟩
    · have := I.evw w t (Or.inl he); omega
    · have := I.evw w t (Or.inr ⟨r, he⟩); omega
  refine ⟨htr, ?_, ?_⟩
  · subst htr
    intro hret
    have herr : s.error = false := by
      cases he : s.error with
      | false => rfl
      | true => obtain ⟨w, t, hm⟩ := I.errIff.1 he; simp at hm
    obtain ⟨i, hi⟩ := List.getElem?_of_mem ht0
    have hlt : i < ts.length := by
      rcases Nat.lt_or_ge i ts.length with h' | h'
      · exact h'
      · rw [List.getElem?_eq_none h'] at hi; simp at hi
    obtain ⟨w, hw⟩ := all_done ho h hx hret herr i hlt
    simp at hw
  · intro e
    cases e <;> simp [step, hws]

/-- C10, what holds: a positive thread count finishes (C07). -/
theorem C10_partial (ho : IsOrder order) (h : construct order lim ts = .ok g)
    (hx : Exec g n tr s) (hnr : ∀ w t, Ev.finish w t .raise ∉ tr) (hmax : ∀ e, step g s e = none) :
    s.returned ↔ 0 < n := by
  constructor
  · intro hret
    rcases Nat.eq_zero_or_pos n with rfl | hn
    · exact absurd hret (C10_violated ho h hx).2.1
    · exact hn
  · intro hn; exact C07_maximal_returned ho h hn hx hnr hmax

example : ∃ s, Exec diamondG 0 [] s := ⟨_, .init⟩

/-! ### C09, C16 -/

/-- `t` is running after the events `tr`. -/
def Running (tr : List Ev) (t : Nat) : Prop :=
  (∃ w, Ev.start w t ∈ tr) ∧ ∀ w r, Ev.finish w t r ∉ tr

/-- C09: at most `n` work functions are running at any moment. -/
theorem C09_parallelism (ho : IsOrder order) (h : construct order lim ts = .ok g)
    (hx : Exec g n tr s) (pre post : List Ev) (htr : tr = pre ++ post) (l : List Nat)
    (hl : l.Nodup) (hr : ∀ t ∈ l, Running pre t) : l.length ≤ n := by
  obtain ⟨s1, h1⟩ := hx.prefix pre post htr
  obtain ⟨_, _, _, _, dep, hwf, _⟩ := accepted ho h
  have I := inv_of_exec hwf h1
  have hw : ∀ t ∈ l, ∃ w : Nat, s1.ws[w]? = some (WS.run t) := by
    intro t ht
    obtain ⟨⟨w, hs⟩, hne⟩ := hr t ht
    rcases I.startedWhere t (mem_starts.2 ⟨w, hs⟩) with he | hw
    · obtain ⟨w', r, hr'⟩ := mem_ends.1 he
      exact absurd hr' (hne w' r)
    · exact hw
  have : (l.map WS.run).Subperm s1.ws := by
    apply List.Nodup.subperm
    · exact hl.map (fun a b hab => by simpa using hab)
    · intro x hx
      obtain ⟨t, ht, rfl⟩ := List.mem_map.1 hx
      obtain ⟨w, hw⟩ := hw t ht
      exact List.mem_of_getElem? hw
  have := this.length_le
  simpa [I.lenW] using this

/-- C09, with one worker: the work of `t` has ended before that of another target starts. -/
theorem C09_one_worker (ho : IsOrder order) (h : construct order lim ts = .ok g)
    (hx : Exec g 1 tr s) (a b c : List Ev) (w t w' t' : Nat)
    (htr : tr = a ++ .start w t :: b ++ .start w' t' :: c) : ∃ w'' r, Ev.finish w'' t r ∈ b := by
  by_contra hcon
  push Not at hcon
  have h2 := C02_at_most_once ho h hx
  have hne : t ≠ t' := by
    rintro rfl
    have e1 : tr[a.length]? = some (.start w t) := by rw [htr]; simp
    have e2 : tr[a.length + 1 + b.length]? = some (.start w' t) := by
      rw [htr]; rw [List.getElem?_append_right (by simp; omega)]; simp
      rw [show a.length + 1 + b.length - (a.length + (b.length + 1)) = 0 by omega]; rfl
    have := (h2 t).1 _ _ w w' e1 e2
    omega
  have hpre : tr = (a ++ .start w t :: b ++ [.start w' t']) ++ c := by rw [htr]; simp
  have hrun : ∀ u w1, Ev.start w1 u ∈ (a ++ .start w t :: b ++ [.start w' t']) →
      (∀ w2 r, Ev.finish w2 u r ∉ a ++ .start w t :: b) → Running (a ++ .start w t :: b ++ [.start w' t']) u := by
    intro u w1 hs hne
    refine ⟨⟨w1, hs⟩, fun w2 r hm => ?_⟩
    rcases List.mem_append.1 hm with hm | hm
    · exact hne w2 r hm
    · simp at hm
  -- an end before the start is impossible
  have hbefore : ∀ p q u w1, tr = p ++ .start w1 u :: q → ∀ w2 r, Ev.finish w2 u r ∉ p := by
    intro p q u w1 he w2 r hm
    obtain ⟨p1, p2, rfl⟩ := List.append_of_mem hm
    obtain ⟨w3, hw3⟩ := (h2 u).2.2 p1 (p2 ++ .start w1 u :: q) w2 r (by rw [he]; simp)
    obtain ⟨i, hi⟩ := List.getElem?_of_mem hw3
    have hilt : i < p1.length := by
      rcases Nat.lt_or_ge i p1.length with h' | h'
      · exact h'
      · rw [List.getElem?_eq_none h'] at hi; simp at hi
    have e1 : tr[i]? = some (.start w3 u) := by
      rw [he, List.append_assoc, List.getElem?_append_left hilt]; exact hi
    have e2 : tr[(p1 ++ .finish w2 u r :: p2).length]? = some (.start w1 u) := by rw [he]; simp
    have := (h2 u).1 _ _ _ _ e1 e2
    simp at this; omega
  have hc := C09_parallelism ho h hx _ c hpre [t, t'] (by simp [hne]) (by
    intro u hu
    simp at hu
    rcases hu with rfl | rfl
    · refine hrun u w (by simp) ?_
      intro w2 r hm
      rcases List.mem_append.1 hm with hm | hm
      · exact hbefore a (b ++ .start w' t' :: c) u w (by rw [htr]; simp) w2 r hm
      · simp at hm; exact hcon w2 r hm
    · refine hrun u w' (by simp) ?_
      intro w2 r hm
      exact hbefore (a ++ .start w t :: b) c u w' htr w2 r hm)
  simp at hc

example : ∃ s, Exec diamondG 2 (diamondOk.take 4) s ∧ Running (diamondOk.take 4) 1 ∧
    Running (diamondOk.take 4) 2 := by
  obtain ⟨s, h, _⟩ := diamondOk_exec
  obtain ⟨s1, h1⟩ := h.prefix (diamondOk.take 4) (diamondOk.drop 4) rfl
  refine ⟨s1, h1, ⟨⟨1, by decide⟩, ?_⟩, ⟨⟨0, by decide⟩, ?_⟩⟩ <;>
  · intro w r hm; simp [diamondOk] at hm

/-- `t` is ready after `tr`: all dependencies finished, and it has not been started. -/
def Ready (ts : List DTarget) (tr : List Ev) (t : Nat) : Prop :=
  t < ts.length ∧ (∀ d, DependsOn ts t d → ∃ w, Ev.finish w d .ok ∈ tr) ∧ ∀ w, Ev.start w t ∉ tr

/-- start as many queued targets as there are idle workers -/
theorem start_all {dep : Nat → List Nat} (hwf : WF g dep) : ∀ (k : Nat) (tr : List Ev) (s : St),
    Exec g n tr s → s.error = false → s.queue.length = k →
    s.queue.length ≤ s.ws.countP (fun x => decide (x = .idle)) →
    ∃ evs s', Exec g n (tr ++ evs) s' ∧ (∀ e ∈ evs, ∃ w t, e = .start w t) ∧
      ∀ t ∈ s.queue, ∃ w, Ev.start w t ∈ evs := by
  intro k
  induction k with
  | zero =>
    intro tr s hx _ hk _
    refine ⟨[], s, by simpa using hx, by simp, ?_⟩
    rw [List.length_eq_zero_iff.1 hk]; simp
  | succ k ih =>
    intro tr s hx herr hk hidle
    have I := inv_of_exec hwf hx
    cases hq : s.queue with
    | nil => rw [hq] at hk; simp at hk
    | cons t q =>
      have hpos : 0 < s.ws.countP (fun x => decide (x = WS.idle)) := by omega
      rw [List.countP_pos_iff] at hpos
      obtain ⟨x, hxm, hxi⟩ := hpos
      simp at hxi; subst hxi
      obtain ⟨w, hw⟩ := List.getElem?_of_mem hxm
      have hu : s.unfinished ≠ 0 := by have := I.unf; rw [hq] at this; simp at this; omega
      have hst : step g s (.start w t) = some (afterStart s w t q) := step_start hw hq herr hu
      have hx1 := Exec.snoc hx hst
      have hwl : w < s.ws.length := by
        rcases Nat.lt_or_ge w s.ws.length with h' | h'
        · exact h'
        · rw [List.getElem?_eq_none h'] at hw; simp at hw
      have hcnt : (s.ws.set w (.run t)).countP (fun x => decide (x = WS.idle)) + 1 =
          s.ws.countP (fun x => decide (x = WS.idle)) := by
        rw [List.countP_set hwl]
        have : s.ws[w] = WS.idle := by
          rw [List.getElem?_eq_getElem hwl] at hw; simpa using hw
        simp only [this, decide_true, if_true]
        simp
        have : 0 < s.ws.countP (fun x => decide (x = WS.idle)) := by omega
        omega
      obtain ⟨evs, s', h1, h2, h3⟩ := ih (tr ++ [.start w t]) (afterStart s w t q) hx1 herr
        (by rw [hq] at hk; simpa [afterStart] using hk) (by
          rw [hq] at hidle; simp [afterStart] at hidle ⊢; omega)
      refine ⟨.start w t :: evs, s', by simpa using h1, ?_, ?_⟩
      · intro e he
        rcases List.mem_cons.1 he with rfl | he
        · exact ⟨w, t, rfl⟩
        · exact h2 e he
      · intro u hu
        rcases List.mem_cons.1 hu with rfl | hu
        · exact ⟨w, by simp⟩
        · obtain ⟨w', hw'⟩ := h3 u hu; exact ⟨w', by simp [hw']⟩

/-- C16: as long as nothing failed, if the ready targets and the running ones together are at
most `n`, then without any work function having to end, all ready targets can be
started, so that all of them run at the same time. -/
theorem C16_parallel (ho : IsOrder order) (h : construct order lim ts = .ok g)
    (hx : Exec g n tr s) (hok : ∀ w t r, Ev.finish w t r ∈ tr → r = .ok)
    (ready running : List Nat) (hrn : ready.Nodup) (hr : ∀ t, t ∈ ready ↔ Ready ts tr t)
    (hu : ∀ t, t ∈ running ↔ Running tr t)
    (hlen : ready.length + running.length ≤ n) :
    ∃ evs s', Exec g n (tr ++ evs) s' ∧ (∀ e ∈ evs, ∃ w t, e = Ev.start w t) ∧
      ∀ t ∈ ready ++ running, Running (tr ++ evs) t := by
  obtain ⟨_, _, _, hsz, dep, hwf, hdep⟩ := accepted ho h
  have I := inv_of_exec hwf hx
  have herr : s.error = false := by
    cases he : s.error with
    | false => rfl
    | true => obtain ⟨w, t, hm⟩ := I.errIff.1 he; have := hok w t _ hm; simp at this
  have hqr : ∀ t, t ∈ ready ↔ t ∈ s.queue := by
    intro t
    rw [hr]
    constructor
    · rintro ⟨h1, h2, h3⟩
      have hc0 : s.count t = 0 := by
        rw [I.cnt t (by rw [hsz]; exact h1)]
        have : (dep t).filter (fun j => !s.done j) = [] := by
          rw [List.filter_eq_nil_iff]; intro j hj
          obtain ⟨w, hw⟩ := h2 j ((hdep t j).1 hj)
          simp [(I.doneIff j).2 (Or.inl ⟨w, hw⟩)]
        rw [this]; rfl
      rcases I.ready herr t (by rw [hsz]; exact h1) hc0 with hq | hs
      · exact hq
      · obtain ⟨w, hw⟩ := mem_starts.1 hs; exact absurd hw (h3 w)
    · intro hq
      obtain ⟨h1, h2, h3⟩ := I.qmem t hq
      refine ⟨by rw [← hsz]; exact h1, ?_, fun w hw => h3 (mem_starts.2 ⟨w, hw⟩)⟩
      intro d hd
      have hd' := (hdep t d).2 hd
      rw [I.cnt t h1] at h2
      have hnil : (dep t).filter (fun j => !s.done j) = [] := List.length_eq_zero_iff.1 (by omega)
      rw [List.filter_eq_nil_iff] at hnil
      have := hnil d hd'
      simp at this
      rcases (I.doneIff d).1 this with hh | ⟨w, hw⟩
      · exact hh
      · have := hok w d _ hw; simp at this
  have hrw : ∀ t, t ∈ running ↔ ∃ w : Nat, s.ws[w]? = some (WS.run t) := by
    intro t
    rw [hu]
    constructor
    · rintro ⟨⟨w, hs⟩, hne⟩
      rcases I.startedWhere t (mem_starts.2 ⟨w, hs⟩) with he | hw
      · obtain ⟨w', r, hr'⟩ := mem_ends.1 he
        exact absurd hr' (hne w' r)
      · exact hw
    · rintro ⟨w, hw⟩
      have := I.runs w t hw
      exact ⟨mem_starts.1 this.1, fun w' r hm => this.2 (mem_ends.2 ⟨w', r, hm⟩)⟩
  have hql : s.queue.length = ready.length := by
    have h1 := (I.qnodup.subperm (l₂ := ready) (fun t ht => (hqr t).2 ht)).length_le
    have h2 := (hrn.subperm (l₂ := s.queue) (fun t ht => (hqr t).1 ht)).length_le
    omega
  have hgoal : ∀ evs s', Exec g n (tr ++ evs) s' → (∀ e ∈ evs, ∃ w t, e = Ev.start w t) →
      (∀ t ∈ s.queue, ∃ w, Ev.start w t ∈ evs) →
      ∀ t ∈ ready ++ running, Running (tr ++ evs) t := by
    intro evs s' _ hev hst t ht
    have hnf : ∀ w r, Ev.finish w t r ∉ evs := by
      intro w r hm; obtain ⟨w', t', he⟩ := hev _ hm; simp at he
    rcases List.mem_append.1 ht with ht | ht
    · obtain ⟨w, hw⟩ := hst t ((hqr t).1 ht)
      refine ⟨⟨w, by simp [hw]⟩, fun w' r hm => ?_⟩
      rcases List.mem_append.1 hm with hm | hm
      · have := I.endsStarted t (mem_ends.2 ⟨w', r, hm⟩)
        exact (I.qmem t ((hqr t).1 ht)).2.2 this
      · exact hnf w' r hm
    · obtain ⟨⟨w, hw⟩, hne⟩ := (hu t).1 ht
      refine ⟨⟨w, by simp [hw]⟩, fun w' r hm => ?_⟩
      rcases List.mem_append.1 hm with hm | hm
      · exact hne w' r hm
      · exact hnf w' r hm
  by_cases hu0 : s.unfinished = 0
  · have hq : s.queue = [] := by
      have := I.unf; rw [hu0] at this
      exact List.length_eq_zero_iff.1 (by omega)
    refine ⟨[], s, by simpa using hx, by simp, hgoal [] s (by simpa using hx) (by simp) (by rw [hq]; simp)⟩
  · have hcount : s.queue.length ≤ s.ws.countP (fun x => decide (x = .idle)) := by
      have hnorel : ∀ w : Nat, s.ws[w]? ≠ some WS.release := fun w hw => hu0 (I.rel herr ⟨w, hw⟩)
      have hnodead : ∀ w : Nat, s.ws[w]? ≠ some WS.dead := by
        intro w hw
        obtain ⟨w', t, hm⟩ := I.raised.2 ⟨w, hw⟩
        have := hok w' t _ hm; simp at this
      have hbusy : s.ws.countP WS.busy ≤ running.length := by
        have : (s.ws.filter WS.busy).Subperm (running.map WS.run) := by
          apply List.Nodup.subperm
          · rw [List.nodup_iff_injective_getElem]
            have : ∀ (l : List WS), (∀ i j t : Nat, l[i]? = some (WS.run t) → l[j]? = some (WS.run t) → i = j) →
                (∀ x ∈ l, x ≠ WS.dead) → (l.filter WS.busy).Nodup := by
              intro l
              induction l with
              | nil => intro _ _; simp
              | cons x l ihl =>
                intro hinj hnd
                have hinj' : ∀ i j t : Nat, l[i]? = some (WS.run t) → l[j]? = some (WS.run t) → i = j := by
                  intro i j t hi hj
                  have := hinj (i+1) (j+1) t (by simpa using hi) (by simpa using hj)
                  omega
                have := ihl hinj' (fun y hy => hnd y (by simp [hy]))
                rw [List.filter_cons]
                split
                · rename_i hbx
                  rw [List.nodup_cons]
                  refine ⟨?_, this⟩
                  intro hmem
                  have hmem := (List.mem_filter.1 hmem).1
                  obtain ⟨j, hj⟩ := List.getElem?_of_mem hmem
                  cases x with
                  | run t =>
                    have := hinj 0 (j+1) t (by simp) (by simpa using hj)
                    omega
                  | dead => exact hnd _ (by simp) rfl
                  | idle => simp [WS.busy] at hbx
                  | release => simp [WS.busy] at hbx
                · exact this
            rw [← List.nodup_iff_injective_getElem]
            exact this s.ws (fun i j t hi hj => I.runInj i j t hi hj) (by
              intro x hx hd; subst hd
              obtain ⟨w, hw⟩ := List.getElem?_of_mem hx
              exact hnodead w hw)
          · intro x hx
            obtain ⟨hx1, hx2⟩ := List.mem_filter.1 hx
            obtain ⟨w, hw⟩ := List.getElem?_of_mem hx1
            cases x with
            | run t => exact List.mem_map.2 ⟨t, (hrw t).2 ⟨w, hw⟩, rfl⟩
            | dead => exact absurd hw (hnodead w)
            | idle => simp [WS.busy] at hx2
            | release => simp [WS.busy] at hx2
        have := this.length_le
        rw [List.countP_eq_length_filter]; simpa using this
      have hsplit : s.ws.length = s.ws.countP WS.busy + s.ws.countP (fun x => decide (x = .idle)) := by
        have : ∀ l : List WS, (∀ x ∈ l, x ≠ WS.release) →
            l.length = l.countP WS.busy + l.countP (fun x => decide (x = .idle)) := by
          intro l
          induction l with
          | nil => intro _; rfl
          | cons x l ihl =>
            intro hl
            have := ihl (fun y hy => hl y (by simp [hy]))
            have hx := hl x (by simp)
            simp only [List.length_cons, List.countP_cons]
            cases x <;> simp_all [WS.busy] <;> omega
        apply this
        intro x hx hd; subst hd
        obtain ⟨w, hw⟩ := List.getElem?_of_mem hx
        exact hnorel w hw
      rw [I.lenW] at hsplit
      omega
    obtain ⟨evs, s', h1, h2, h3⟩ := start_all hwf _ tr s hx herr rfl hcount
    exact ⟨evs, s', h1, h2, hgoal evs s' h1 h2 h3⟩

/-- after "a" is done with two workers: "b" and "c" are ready, nothing is running -/
example : ∃ s, Exec diamondG 2 (diamondOk.take 2) s ∧
    (∀ t, t ∈ [1, 2] ↔ Ready diamond (diamondOk.take 2) t) ∧
    (∀ t, t ∈ [] ↔ Running (diamondOk.take 2) t) := by
  obtain ⟨s, h, _⟩ := diamondOk_exec
  obtain ⟨s1, h1⟩ := h.prefix (diamondOk.take 2) (diamondOk.drop 2) rfl
  have den : ∀ nm j, Denotes diamond nm j → (namesToDeptargets diamond).get nm = some j :=
    fun nm j hh => (names_get diamond nm j).2 hh
  refine ⟨s1, h1, ?_, ?_⟩
  · intro t
    constructor
    · intro ht
      have ht' : t = 1 ∨ t = 2 := by simpa using ht
      rcases ht' with rfl | rfl <;> refine ⟨by decide, ?_, by intro w hm; simp [diamondOk] at hm⟩
      all_goals
        rintro d ⟨t', nm, h1, h2, h3⟩
        simp [diamond] at h1; subst h1; simp at h2; subst h2
        have := den _ _ h3
        simp [namesToDeptargets, diamond, Dict.set, Dict.get] at this
        subst this
        exact ⟨0, by decide⟩
    · rintro ⟨hlt, hdep, hns⟩
      have hlt' : t < 4 := hlt
      have : t = 0 ∨ t = 1 ∨ t = 2 ∨ t = 3 := by omega
      rcases this with rfl | rfl | rfl | rfl
      · exact absurd (by decide) (hns 0)
      · simp
      · simp
      · obtain ⟨w, hw⟩ := hdep 1 diamond_dep.1
        simp [diamondOk] at hw
  · intro t
    simp only [List.not_mem_nil, false_iff]
    rintro ⟨⟨w, hw⟩, hn⟩
    simp [diamondOk] at hw
    obtain ⟨rfl, rfl⟩ := hw
    exact hn 0 .ok (by decide)

/-! ### C11, C12, C13 -/

theorem depthWithin_of_length (h : ts.length ≤ lim) : DepthWithin ts lim := by
  intro l hn hl _
  have := (hn.subperm (l₂ := List.range ts.length) (fun x hx => by simpa using hl x hx)).length_le
  simp at this; omega

theorem construct_cases (ho : IsOrder order) (hc : Closed ts) (hr : HasRoot ts)
    (hl : DepthWithin ts lim) :
    (Cyclic ts → ∃ e, construct order lim ts = .error e ∧
      ((∃ p, e = .circular p) ∨ ∃ l, e = .connectivity l)) ∧
    (¬ Cyclic ts → ∃ g, construct order lim ts = .ok g) := by
  obtain ⟨inv, dep, P⟩ := prep ho hc
  have hcon := P.connectivity lim
  have hroot : ¬ (nonDependable ts).length = 0 := by rw [noRoot_iff, not_not]; exact hr
  have hcons := P.cons lim
  rw [if_neg hroot] at hcons
  constructor
  · intro hcy
    cases hcc : connectivityCheck inv lim ts.length (nonDependable ts) with
    | ok u => exact absurd hcy (hcon.1 hcc)
    | error e =>
      rw [hcc] at hcons
      refine ⟨e, hcons, ?_⟩
      rcases hcon.2.2 e hcc with ⟨nv, rfl⟩ | ⟨_, hd⟩ | ⟨p, d, rfl, _⟩
      · exact Or.inr ⟨nv, rfl⟩
      · exact absurd hl hd
      · exact Or.inl ⟨_, rfl⟩
  · intro hac
    cases hcc : connectivityCheck inv lim ts.length (nonDependable ts) with
    | ok u => rw [hcc] at hcons; exact ⟨_, hcons⟩
    | error e =>
      exfalso
      rcases hcon.2.2 e hcc with ⟨nv, rfl⟩ | ⟨_, hd⟩ | ⟨p, d, rfl, hdp, hch⟩
      · obtain ⟨hne, hnv⟩ := hcon.2.1 nv hcc
        obtain ⟨i, hi⟩ := List.exists_mem_of_ne_nil _ hne
        obtain ⟨hlt, hno⟩ := (hnv i).1 hi
        exact hno (reaches_root hc hac i hlt)
      · exact absurd hl hd
      · have hedge : Edge inv = fun a b => DependsOn ts b a := by
          funext a b; exact propext (P.edge a b)
        have := chain_cycle (succ := inv) hdp (by rw [hedge]; exact hch)
        exact hac ⟨d, (P.trans d d).1 this⟩

theorem hasRoot_of_acyclic (hne : ts ≠ []) (hc : Closed ts) (hac : ¬ Cyclic ts) : HasRoot ts := by
  have : 0 < ts.length := by cases ts <;> simp_all
  obtain ⟨r, hr, _⟩ := reaches_root hc hac 0 this
  obtain ⟨t, ht, hd⟩ := mem_nonDependable.1 hr
  exact ⟨t, List.mem_of_getElem? ht, hd⟩

/-- C11: the solver is constructed iff the list is non-empty, closed and acyclic (given that no
simple dependency chain exceeds the recursion limit). -/
theorem C11_accepts (ho : IsOrder order) (hl : DepthWithin ts lim) :
    (∃ g, construct order lim ts = .ok g) ↔ ts ≠ [] ∧ Closed ts ∧ ¬ Cyclic ts := by
  constructor
  · rintro ⟨g, hg⟩
    obtain ⟨h1, ⟨t, ht, _⟩, h3, _⟩ := accepted ho hg
    exact ⟨by rintro rfl; simp at ht, h1, h3⟩
  · rintro ⟨hne, hc, hac⟩
    exact (construct_cases ho hc (hasRoot_of_acyclic hne hc hac) hl).2 hac

example : DepthWithin diamond 10 ∧ diamond ≠ [] ∧ Closed diamond ∧ ¬ Cyclic diamond := by
  have h := accepted idOrder_isOrder diamond_accepted
  exact ⟨depthWithin_of_length (by decide), by decide, h.1, h.2.2.1⟩

/-- C12: which exception is raised. -/
theorem C12_right_exception (ho : IsOrder order) (hl : DepthWithin ts lim) :
    -- UnknowTargetError iff a dependency is no target name; it carries such a name
    ((∃ nm, construct order lim ts = .error (.unknown nm)) ↔ ¬ Closed ts) ∧
    (∀ nm, construct order lim ts = .error (.unknown nm) →
      (∃ t ∈ ts, nm ∈ t.depsArg) ∧ ∀ t ∈ ts, t.name ≠ nm) ∧
    -- otherwise NoOneNonDependableTarget iff every target has a dependency
    (construct order lim ts = .error .noRoot ↔ Closed ts ∧ ¬ HasRoot ts) ∧
    -- otherwise CircularDependencyError or ConnectivityError iff there is a cycle
    (((∃ p, construct order lim ts = .error (.circular p)) ∨
      (∃ l, construct order lim ts = .error (.connectivity l))) ↔
        Closed ts ∧ HasRoot ts ∧ Cyclic ts) ∧
    -- no other outcome
    ((∃ g, construct order lim ts = .ok g) ∨ (∃ nm, construct order lim ts = .error (.unknown nm)) ∨
      construct order lim ts = .error .noRoot ∨ (∃ p, construct order lim ts = .error (.circular p)) ∨
      (∃ l, construct order lim ts = .error (.connectivity l))) := by
  by_cases hc : Closed ts
  · by_cases hr : HasRoot ts
    · obtain ⟨h1, h2⟩ := construct_cases ho hc hr hl
      by_cases hcy : Cyclic ts
      · obtain ⟨e, he, hee⟩ := h1 hcy
        rw [he]
        rcases hee with ⟨p, rfl⟩ | ⟨l, rfl⟩ <;> simp [hc, hr, hcy]
      · obtain ⟨g, hg⟩ := h2 hcy
        rw [hg]; simp [hc, hr, hcy]
    · obtain ⟨inv, dep, P⟩ := prep ho hc
      have : construct order lim ts = .error .noRoot := by
        rw [P.cons, if_pos ((noRoot_iff ts).2 hr)]
      rw [this]; simp [hc, hr]
  · obtain ⟨nm, h1, h2, h3⟩ := construct_unknown (order := order) (lim := lim) hc
    rw [h1]
    refine ⟨⟨fun _ => hc, fun _ => ⟨nm, rfl⟩⟩, ?_, ?_, ?_, Or.inr (Or.inl ⟨nm, rfl⟩)⟩
    · intro nm' he; cases he; exact ⟨h2, h3⟩
    · simp [hc]
    · simp [hc]

example : construct idOrder 10 [⟨"a", []⟩, ⟨"b", ["x"]⟩] = .error (.unknown "x") := rfl
example : construct idOrder 10 [⟨"a", ["b"]⟩, ⟨"b", ["a"]⟩] = .error .noRoot := rfl
example : construct idOrder 10 [⟨"r", []⟩, ⟨"a", ["r", "b"]⟩, ⟨"b", ["a"]⟩] =
    .error (.circular [0, 1, 2, 1]) := rfl
example : construct idOrder 10 [⟨"r", []⟩, ⟨"a", ["b"]⟩, ⟨"b", ["a"]⟩] =
    .error (.connectivity [1, 2]) := rfl

/-- C13: the carried list is a chain of dependents (each next element depends on the previous
one) whose last element occurred before, so that element depends on itself; the
`ConnectivityError` list consists of exactly the targets from which no dependency-free target
is reachable. -/
theorem C13_evidence (ho : IsOrder order) :
    (∀ c, construct order lim ts = .error (.circular c) →
      ∃ p d, c = p ++ [d] ∧ d ∈ p ∧ c.IsChain (fun a b => DependsOn ts b a) ∧
        TransGen (DependsOn ts) d d) ∧
    (∀ l, construct order lim ts = .error (.connectivity l) →
      l ≠ [] ∧ ∀ i, i ∈ l ↔ i < ts.length ∧
        ¬ ∃ r t, ReflTransGen (DependsOn ts) i r ∧ ts[r]? = some t ∧ t.depsArg = []) ∧
    -- a recursion error only with a chain of dependents longer than the limit
    (construct order lim ts = .error .recursion → ¬ DepthWithin ts lim) := by
  by_cases hc : Closed ts
  · obtain ⟨inv, dep, P⟩ := prep ho hc
    have hcon := P.connectivity lim
    have hcons := P.cons lim
    by_cases hroot : (nonDependable ts).length = 0
    · rw [if_pos hroot] at hcons
      rw [hcons]; simp
    · rw [if_neg hroot] at hcons
      cases hcc : connectivityCheck inv lim ts.length (nonDependable ts) with
      | ok u => rw [hcc] at hcons; rw [hcons]; simp [Except.bind]
      | error e =>
        rw [hcc] at hcons
        have hcons' : construct order lim ts = .error e := hcons
        rw [hcons']
        refine ⟨?_, ?_, ?_⟩
        · intro c he
          cases he
          rcases hcon.2.2 _ hcc with ⟨nv, h⟩ | ⟨h, _⟩ | ⟨p, d, h, hdp, hch⟩
          · cases h
          · cases h
          · cases h
            refine ⟨p, d, rfl, hdp, hch, ?_⟩
            have hedge : Edge inv = fun a b => DependsOn ts b a := by
              funext a b; exact propext (P.edge a b)
            have := chain_cycle (succ := inv) hdp (by rw [hedge]; exact hch)
            exact (P.trans d d).1 this
        · intro l he
          cases he
          obtain ⟨h1, h2⟩ := hcon.2.1 l hcc
          refine ⟨h1, fun i => ?_⟩
          rw [h2]
          constructor
          · rintro ⟨ha, hb⟩
            refine ⟨ha, ?_⟩
            rintro ⟨r, t, h3, h4, h5⟩
            exact hb ⟨r, mem_nonDependable.2 ⟨t, h4, h5⟩, h3⟩
          · rintro ⟨ha, hb⟩
            refine ⟨ha, ?_⟩
            rintro ⟨r, hr, h3⟩
            obtain ⟨t, h4, h5⟩ := mem_nonDependable.1 hr
            exact hb ⟨r, t, h3, h4, h5⟩
        · intro he
          cases he
          rcases hcon.2.2 _ hcc with ⟨nv, h⟩ | ⟨_, h⟩ | ⟨p, d, h, _⟩
          · cases h
          · exact h
          · cases h
  · obtain ⟨nm, h1, h2, h3⟩ := construct_unknown (order := order) (lim := lim) hc
    rw [h1]; simp

example : construct idOrder 1 [⟨"a", []⟩, ⟨"b", ["a"]⟩] = .error .recursion := rfl

/-! ### C14 -/

/-- `k` is in the set stored under `x` -/
def InSet {α : Type*} [DecidableEq α] (d : Dict α (List α)) (x k : α) : Prop :=
  ∃ s, d.get x = some s ∧ k ∈ s

/-- C14: transposition, involution, and `KeyError` otherwise. -/
theorem C14_invert {α : Type*} [DecidableEq α] (d : Dict α (List α)) (hn : d.keys.Nodup) :
    ((∀ x k, InSet d x k → k ∈ d.keys) →
      ∃ inv inv2, invertDependsDictionary d = .ok inv ∧ inv.keys = d.keys ∧
        (∀ x k, InSet inv k x ↔ InSet d x k) ∧
        invertDependsDictionary inv = .ok inv2 ∧ inv2.keys = d.keys ∧
        (∀ x k, InSet inv2 x k ↔ InSet d x k)) ∧
    ((∃ x k, InSet d x k ∧ k ∉ d.keys) → invertDependsDictionary d = .error .keyError) := by
  have key : ∀ d : Dict α (List α), d.keys.Nodup → (∀ x k, InSet d x k → k ∈ d.keys) →
      ∃ inv, invertDependsDictionary d = .ok inv ∧ inv.keys = d.keys ∧
        (∀ x k, InSet inv k x ↔ InSet d x k) := by
    intro d hn hc
    obtain ⟨inv, h1, h2, h3⟩ := invert_ok d hn (by
      intro p hp x hx
      exact hc p.1 x ⟨p.2, Dict.get_of_mem hn (show (p.1, p.2) ∈ d from hp), hx⟩)
    refine ⟨inv, h1, h2, ?_⟩
    intro x k
    constructor
    · rintro ⟨s, hs, hx⟩
      have hk : k ∈ d.keys := by
        rw [← h2, ← Dict.get_isSome_iff, hs]; rfl
      obtain ⟨s', hs', _, hm⟩ := h3 k hk
      rw [hs] at hs'; cases hs'
      obtain ⟨ds, hd, hk'⟩ := (hm x).1 hx
      exact ⟨ds, Dict.get_of_mem hn hd, hk'⟩
    · rintro ⟨ds, hd, hk'⟩
      obtain ⟨s', hs', _, hm⟩ := h3 k (hc x k ⟨ds, hd, hk'⟩)
      exact ⟨s', hs', (hm x).2 ⟨ds, Dict.mem_of_get hd, hk'⟩⟩
  constructor
  · intro hc
    obtain ⟨inv, h1, h2, h3⟩ := key d hn hc
    obtain ⟨inv2, g1, g2, g3⟩ := key inv (by rw [h2]; exact hn) (by
      intro x k hk
      rw [h2]
      obtain ⟨s, hs, _⟩ := (h3 k x).1 hk
      rw [← Dict.get_isSome_iff, hs]; rfl)
    exact ⟨inv, inv2, h1, h2, h3, g1, by rw [g2, h2], fun x k => by rw [g3, h3]⟩
  · rintro ⟨x, k, ⟨s, hs, hk⟩, hno⟩
    exact invert_err d hn ⟨(x, s), Dict.mem_of_get hs, k, hk, hno⟩

example : invertDependsDictionary [("a", []), ("b", ["a"]), ("c", ["a", "b"])] =
    .ok [("a", ["b", "c"]), ("b", ["c"]), ("c", [])] := rfl

end Licant.Solver
