/-
The event loop.  `Model.lean` takes what a worker does between two suspensions as one step, and lets a worker that waits for the queue go
on whenever the queue is not empty.  Here the objects of asyncio that decide about this are modelled: the ready queue of the event loop,
`asyncio.Queue` with its futures, `asyncio.Lock`, and `Queue.join`.  The executions are shown to be executions of `Threads.lean`, so that the
properties hold of them.
-/
import Verif.Solver.Threads

set_option autoImplicit false

namespace Licant.Solver
open Relation

/-! ### Model -/

/-- What the event loop will do (`BaseEventLoop._ready`): continue worker `w`, which is new or whose future of `queue.get` is done; continue
worker `w` with the result of the work function of `t`; continue `start` (solver.py:105). -/
inductive Handle where
  | step (w : Nat)
  | result (w t : Nat) (r : Ret)
  | main
  deriving DecidableEq, Repr

/-- The state.  `loop` has the attributes of `TaskInvoker` and of the targets, and where each worker is suspended (`idle`: new, or in
`queue.get` of line 116; `release`: in `queue.get` of line 153).
`getters`: `asyncio.Queue._getters`, the workers whose future is not done.  `mtx`: the lock is held; `blocked`: workers suspended in
`mtx.acquire`.  `mainWaits`: `start` waits in `queue.join`; `joined`: it has continued.  `inbox`: results on their way from the threads to
the event loop (`call_soon_threadsafe`).  `waiting`, `active`: the pool, as in `PSt`. -/
structure ASt where
  loop : St
  getters : List Nat
  mtx : Bool
  blocked : List Nat
  ready : List Handle
  mainWaits : Bool
  joined : Bool
  inbox : List (Nat × Ret)
  waiting : List Nat
  active : List Nat

/-- `asyncio.Queue._wakeup_next`: the first future is done, and its worker will be continued. -/
def wakeNext (s : ASt) : ASt :=
  match s.getters with
  | [] => s
  | w :: l => { s with getters := l, ready := s.ready ++ [.step w] }

/-- solver.py:156-157 `await self.queue.put(target)`.  The queue has no bound, so that `put` does not suspend. -/
def put (s : ASt) (t : Nat) : ASt :=
  wakeNext { s with loop := { s.loop with queue := s.loop.queue ++ [t], unfinished := s.loop.unfinished + 1 } }

/-- solver.py:127, 154 `self.queue.task_done()`; `none` is `ValueError`.  If nothing is left, `start` will be continued. -/
def taskDone (s : ASt) : Option ASt :=
  if s.loop.unfinished ≤ 0 then none
  else
    let s := { s with loop := { s.loop with unfinished := s.loop.unfinished - 1 } }
    if s.loop.unfinished = 0 ∧ s.mainWaits = true then some { s with mainWaits := false, ready := s.ready ++ [.main] } else some s

/-- worker `w` is now suspended at `x` -/
def setWorker (s : ASt) (w : Nat) (x : WS) : ASt := { s with loop := { s.loop with ws := s.loop.ws.set w x } }

/-- `await self.queue.get()` on an empty queue, at line 116 (`x = idle`) or 153 (`x = release`) -/
def waitQueue (s : ASt) (w : Nat) (x : WS) : ASt := { setWorker s w x with getters := s.getters ++ [w] }

/-- worker `w` is suspended in `mtx.acquire`; that it is continued later is not modelled, because this never happens (`never_blocked`) -/
def block (s : ASt) (w : Nat) : ASt := { s with blocked := s.blocked ++ [w] }

/-- solver.py:151-154 `release_queue`, or its continuation; the list is what is in the queue -/
def releaseQueue (w : Nat) : List Nat → ASt → ASt
  | [], s => waitQueue s w .release
  | _ :: q, s =>
    match taskDone { s with loop := { s.loop with queue := q } } with
    | none => setWorker s w .dead
    | some s => releaseQueue w q s

/-- solver.py:114-126 and 15-21: the loop of `worker` from line 116 on, or its continuation there -/
def workerGet (s : ASt) (w : Nat) : ASt :=
  match s.loop.queue with
  | [] => waitQueue s w .idle
  | t :: q =>
    let s := { s with loop := { s.loop with queue := q } }
    if s.loop.error then releaseQueue w q s
    else if s.mtx then block s w
    else
      let s := { s with loop := { s.loop with onBase := s.loop.onBase.set w false } }
      { setWorker s w (.run t) with waiting := s.waiting ++ [t] }

/-- solver.py:54-55 with 45-49; `false`: the assertion of line 49 fails -/
def decreaseCounts (s : ASt) : List Nat → ASt × Bool
  | [] => (s, true)
  | d :: ds =>
    let c := s.loop.count d - 1
    let s := { s with loop := { s.loop with count := fun i => if i = d then c else s.loop.count i } }
    let s := if c = 0 then put s d else s
    if c < 0 then (s, false) else decreaseCounts s ds

/-- solver.py:21-23, 52-56, 126-149: worker `w` continues after the work function of `t`, until it is suspended again -/
def workerResult (g : Graph) (s : ASt) (w t : Nat) (r : Ret) : ASt :=
  if r = .raise then setWorker s w .dead
  else
    let s := { s with loop := { s.loop with done := fun i => if i = t then true else s.loop.done i } }
    if s.mtx then block s w
    else
      let x := decreaseCounts { s with mtx := true } (g.inv t)
      let s := { x.1 with mtx := false }
      if x.2 = false then setWorker s w .dead
      else match taskDone s with
        | none => setWorker s w .dead
        | some s =>
          if s.loop.error then releaseQueue w s.loop.queue s
          else if r = .fail then
            let s := { s with loop := { s.loop with error := true } }
            releaseQueue w s.loop.queue s
          else if s.mtx then block s w
          else
            let s := { s with loop := { s.loop with onBase := s.loop.onBase.set w true } }
            if s.loop.onBase.all id ∧ s.loop.queue = [] then releaseQueue w s.loop.queue s
            else workerGet s w

/-- `begin t`, `ret t r`: as in `PEv`.  `deliver w`: the event loop takes the next result from a thread, which is the one worker `w` waits for.
`turn`: it does what is next in the ready queue. -/
inductive AEv where
  | begin (t : Nat)
  | ret (t : Nat) (r : Ret)
  | deliver (w : Nat)
  | turn
  deriving DecidableEq, Repr

/-- One event.  In asyncio the results from the threads are in the ready queue too; here they may be taken at any time, in their order.
What threads do while a worker is being executed only concerns `waiting`, `active` and `inbox`, so that it may as well happen
before or after. -/
def astep (g : Graph) (P : Nat) (s : ASt) : AEv → Option ASt
  | .begin t =>
    match s.waiting with
    | t' :: q => if t' = t ∧ s.active.length < P then some { s with waiting := q, active := s.active ++ [t] } else none
    | [] => none
  | .ret t r => if t ∈ s.active then some { s with active := s.active.erase t, inbox := s.inbox ++ [(t, r)] } else none
  | .deliver w =>
    match s.inbox with
    | (t, r) :: q => if s.loop.ws[w]? = some (.run t) ∧ s.joined = false then some { s with inbox := q, ready := s.ready ++ [.result w t r] } else none
    | [] => none
  | .turn =>
    if s.joined then none
    else match s.ready with
    | [] => none
    | .main :: l => some { s with ready := l, joined := true }
    | .step w :: l =>
      let s := { s with ready := l }
      if s.loop.ws[w]? = some .idle then some (workerGet s w)
      else if s.loop.ws[w]? = some .release then some (releaseQueue w s.loop.queue s)
      else none
    | .result w t r :: l =>
      let s := { s with ready := l }
      if s.loop.ws[w]? = some (.run t) then some (workerResult g s w t r) else none

/-- solver.py:71-105: the workers were created, and `start` waits in `queue.join` (there is at least one target in the queue) -/
def ainit (g : Graph) (n : Nat) : ASt := ⟨init g n, [], false, [], (List.range n).map .step, true, false, [], [], []⟩

/-- All executions of `exec()` with `n` workers and a pool of `P` threads. -/
inductive AExec (g : Graph) (n P : Nat) : List AEv → ASt → Prop
  | init : AExec g n P [] (ainit g n)
  | snoc {tr s e s'} : AExec g n P tr s → astep g P s e = some s' → AExec g n P (tr ++ [e]) s'

/-! ### Specification -/

/-- what the threads do -/
def AEv.thread : AEv → Option PEv
  | .begin t => some (.begin t)
  | .ret t r => some (.ret t r)
  | .deliver _ => none
  | .turn => none

def PEv.thread : PEv → Option PEv
  | .begin t => some (.begin t)
  | .ret t r => some (.ret t r)
  | .loop _ => none

/-- the work functions begun, in this order -/
def abegins (tr : List AEv) : List Nat := tr.filterMap fun
  | .begin t => some t
  | _ => none

/-- The work function of `t` is being executed after `tr`. -/
def ABusy (tr : List AEv) (t : Nat) : Prop := AEv.begin t ∈ tr ∧ ∀ r, AEv.ret t r ∉ tr

/-- `t` could be worked on after `tr`: the work functions of its dependencies have returned, not `False`, and its own has not begun. -/
def AReady (ts : List DTarget) (tr : List AEv) (t : Nat) : Prop :=
  t < ts.length ∧ (∀ d, DependsOn ts t d → AEv.ret d .ok ∈ tr) ∧ AEv.begin t ∉ tr

/-! ### Proofs -/

def steps (l : List Handle) : List Nat := l.filterMap fun
  | .step w => some w
  | _ => none

def results (l : List Handle) : List (Nat × Ret) := l.filterMap fun
  | .result _ t r => some (t, r)
  | _ => none

@[simp] theorem steps_append (a b : List Handle) : steps (a ++ b) = steps a ++ steps b := by simp [steps]
@[simp] theorem steps_nil : steps [] = [] := rfl
@[simp] theorem steps_step (w : Nat) (l : List Handle) : steps (.step w :: l) = w :: steps l := rfl
@[simp] theorem steps_result (w t : Nat) (r : Ret) (l : List Handle) : steps (.result w t r :: l) = steps l := rfl
@[simp] theorem steps_main (l : List Handle) : steps (.main :: l) = steps l := rfl
@[simp] theorem results_append (a b : List Handle) : results (a ++ b) = results a ++ results b := by simp [results]
@[simp] theorem results_nil : results [] = [] := rfl
@[simp] theorem results_step (w : Nat) (l : List Handle) : results (.step w :: l) = results l := rfl
@[simp] theorem results_result (w t : Nat) (r : Ret) (l : List Handle) : results (.result w t r :: l) = (t, r) :: results l := rfl
@[simp] theorem results_main (l : List Handle) : results (.main :: l) = results l := rfl

theorem mem_steps {w : Nat} {l : List Handle} : w ∈ steps l ↔ Handle.step w ∈ l := by
  simp only [steps, List.mem_filterMap]
  constructor
  · rintro ⟨x, hx, h⟩
    cases x <;> simp at h
    subst h; exact hx
  · intro h; exact ⟨_, h, rfl⟩

/-- the state of `Threads.lean` -/
def ASt.abs (s : ASt) : PSt := ⟨s.loop, s.waiting, s.active, results s.ready ++ s.inbox⟩

/-- between two turns -/
structure AInv (s : ASt) : Prop where
  mtx : s.mtx = false
  blk : s.blocked = []
  nod : (s.getters ++ steps s.ready).Nodup
  tok : ∀ w, w ∈ s.getters ++ steps s.ready ↔ s.loop.ws[w]? = some .idle ∨ s.loop.ws[w]? = some .release
  wake : s.getters ≠ [] → s.loop.queue.length ≤ (steps s.ready).length
  res : ∀ w t r, Handle.result w t r ∈ s.ready → s.loop.ws[w]? = some (.run t)
  main1 : s.mainWaits = true → 0 < s.loop.unfinished ∧ Handle.main ∉ s.ready ∧ s.joined = false
  main2 : s.mainWaits = false → s.loop.unfinished = 0 ∧ (s.joined = false → Handle.main ∈ s.ready)

/-- while worker `w` is executed -/
structure MInv (w k : Nat) (s : ASt) : Prop where
  blk : s.blocked = []
  nod : (s.getters ++ steps s.ready).Nodup
  lt : w < s.loop.ws.length
  tok : ∀ v, v ∈ s.getters ++ steps s.ready ↔ v ≠ w ∧ (s.loop.ws[v]? = some .idle ∨ s.loop.ws[v]? = some .release)
  wake : s.getters ≠ [] → s.loop.queue.length ≤ (steps s.ready).length + k
  res : ∀ v t r, Handle.result v t r ∈ s.ready → v ≠ w ∧ s.loop.ws[v]? = some (.run t)
  main1 : s.mainWaits = true → 0 < s.loop.unfinished ∧ Handle.main ∉ s.ready ∧ s.joined = false
  main2 : s.mainWaits = false → s.loop.unfinished = 0 ∧ (s.joined = false → Handle.main ∈ s.ready)

theorem MInv.mono {w k k' : Nat} {s : ASt} (h : MInv w k s) (hk : k ≤ k') : MInv w k' s :=
  ⟨h.blk, h.nod, h.lt, h.tok, fun hg => (h.wake hg).trans (by omega), h.res, h.main1, h.main2⟩

theorem get_set {l : List WS} {w : Nat} (h : w < l.length) (x : WS) (v : Nat) : (l.set w x)[v]? = if v = w then some x else l[v]? := by
  by_cases hv : v = w
  · subst hv; simp [h]
  · rw [List.getElem?_set_ne (Ne.symm hv), if_neg hv]

/-- a worker is suspended in `queue.get` -/
theorem MInv.wait {w k : Nat} {s : ASt} (h : MInv w k s) (hm : s.mtx = false) (hq : s.loop.queue = []) {x : WS} (hx : x = .idle ∨ x = .release) :
    AInv (waitQueue s w x) := by
  have hw : w ∉ s.getters ++ steps s.ready := fun hh => ((h.tok w).1 hh).1 rfl
  have hperm : (s.getters ++ [w] ++ steps s.ready).Perm (w :: (s.getters ++ steps s.ready)) := by
    rw [List.append_assoc, List.singleton_append]; exact List.perm_middle
  refine ⟨hm, h.blk, ?_, fun v => ?_, fun _ => ?_, fun v t r hr => ?_, h.main1, h.main2⟩
  · exact hperm.nodup_iff.2 (List.nodup_cons.2 ⟨hw, h.nod⟩)
  · show v ∈ s.getters ++ [w] ++ steps s.ready ↔ (s.loop.ws.set w x)[v]? = some .idle ∨ (s.loop.ws.set w x)[v]? = some .release
    rw [hperm.mem_iff, List.mem_cons, h.tok, get_set h.lt]
    by_cases hv : v = w
    · simp only [hv, if_true, Option.some.injEq, true_or, true_iff]; exact hx
    · simp [hv]
  · show s.loop.queue.length ≤ _
    rw [hq]; exact Nat.zero_le _
  · show (s.loop.ws.set w x)[v]? = _
    obtain ⟨h1, h2⟩ := h.res v t r hr
    rw [get_set h.lt, if_neg h1]; exact h2

theorem taskDone_some {s : ASt} (hu : 0 < s.loop.unfinished) : ∃ s', taskDone s = some s' := by
  unfold taskDone
  rw [if_neg (by omega)]
  simp only
  split <;> exact ⟨_, rfl⟩

theorem taskDone_frame {s s' : ASt} (h : taskDone s = some s') :
    s'.loop = { s.loop with unfinished := s.loop.unfinished - 1 } ∧ s'.mtx = s.mtx ∧ s'.waiting = s.waiting ∧ s'.active = s.active ∧
    s'.inbox = s.inbox ∧ results s'.ready = results s.ready ∧ s'.getters = s.getters ∧ steps s'.ready = steps s.ready := by
  unfold taskDone at h
  split at h
  · cases h
  · simp only at h
    split at h <;> cases h <;> simp

theorem MInv.taskDone {w k : Nat} {s s' : ASt} (h : MInv w k s) (hmw : s.mainWaits = true) (hs : taskDone s = some s') :
    MInv w k s' ∧ (0 < s'.loop.unfinished → s'.mainWaits = true) := by
  obtain ⟨hu, hnm, hj⟩ := h.main1 hmw
  unfold Licant.Solver.taskDone at hs
  rw [if_neg (by omega)] at hs
  simp only at hs
  split at hs
  · rename_i hz
    cases hs
    refine ⟨⟨h.blk, by simpa using h.nod, h.lt, by simpa using h.tok, by simpa using h.wake, fun v t r hr => ?_, by simp, fun _ => ⟨hz.1, fun _ => by simp⟩⟩, ?_⟩
    · simp only [List.mem_append, List.mem_singleton, reduceCtorEq, or_false] at hr
      exact h.res v t r hr
    · intro hp; simp only at hp; omega
  · rename_i hz
    cases hs
    simp only [hmw, and_true] at hz
    exact ⟨⟨h.blk, h.nod, h.lt, h.tok, h.wake, h.res, fun _ => ⟨by simp only; omega, hnm, hj⟩, fun hh => by simp only at hh; rw [hmw] at hh; cases hh⟩,
      fun _ => hmw⟩

/-- `release_queue` empties the queue and is suspended. -/
theorem releaseQueue_spec {w : Nat} : ∀ (q : List Nat) {k : Nat} {s : ASt}, MInv w k s → s.mtx = false → s.loop.queue = q →
    (q.length : Int) ≤ s.loop.unfinished → (0 < s.loop.unfinished → s.mainWaits = true) →
    AInv (releaseQueue w q s) ∧ (releaseQueue w q s).loop = release s.loop w ∧ (releaseQueue w q s).waiting = s.waiting ∧
    (releaseQueue w q s).active = s.active ∧ (releaseQueue w q s).inbox = s.inbox ∧ results (releaseQueue w q s).ready = results s.ready := by
  intro q
  induction q with
  | nil =>
    intro k s h hm hq _ _
    refine ⟨h.wait hm hq (.inr rfl), ?_, rfl, rfl, rfl, rfl⟩
    show ({ s.loop with ws := s.loop.ws.set w .release } : St) = _
    unfold release
    simp [hq]
  | cons t q ih =>
    intro k s h hm hq hu hmw
    rw [List.length_cons] at hu
    have h1 : MInv w k { s with loop := { s.loop with queue := q } } :=
      ⟨h.blk, h.nod, h.lt, h.tok, fun hg => by have := h.wake hg; rw [hq, List.length_cons] at this; simp only; omega, h.res, h.main1, h.main2⟩
    have hpos : 0 < s.loop.unfinished := by omega
    obtain ⟨s1, hs1⟩ := taskDone_some (s := { s with loop := { s.loop with queue := q } }) hpos
    obtain ⟨h2, h3⟩ := h1.taskDone (hmw hpos) hs1
    obtain ⟨f1, f2, f3, f4, f5, f6, f7, f8⟩ := taskDone_frame hs1
    obtain ⟨a, b, c, d, e, f⟩ := ih h2 (f2.trans hm) (by rw [f1]) (by rw [f1]; simp only; omega) h3
    rw [releaseQueue, hs1]
    refine ⟨a, ?_, c.trans f3, d.trans f4, e.trans f5, f.trans f6⟩
    rw [b, f1]
    unfold release
    simp only [hq, List.length_cons]
    congr 1
    omega

/-- A worker begins a work function or is suspended in `queue.get`. -/
theorem workerGet_spec {w : Nat} {s : ASt} (h : MInv w 1 s) (hm : s.mtx = false) (he : s.loop.error = true → s.loop.queue = []) :
    AInv (workerGet s w) ∧ (workerGet s w).active = s.active ∧ (workerGet s w).inbox = s.inbox ∧
    results (workerGet s w).ready = results s.ready ∧
    ((s.loop.queue = [] ∧ (workerGet s w).loop = { s.loop with ws := s.loop.ws.set w .idle } ∧ (workerGet s w).waiting = s.waiting) ∨
     ∃ t q, s.loop.queue = t :: q ∧ s.loop.error = false ∧ (workerGet s w).loop = afterStart s.loop w t q ∧
       (workerGet s w).waiting = s.waiting ++ [t]) := by
  unfold workerGet
  split
  · rename_i hq
    exact ⟨h.wait hm hq (.inl rfl), rfl, rfl, rfl, .inl ⟨hq, rfl, rfl⟩⟩
  · rename_i t q hq
    have hef : s.loop.error = false := by
      cases hh : s.loop.error with
      | false => rfl
      | true => rw [he hh] at hq; cases hq
    dsimp only
    rw [if_neg (by simp [hef]), if_neg (by simp [hm])]
    refine ⟨⟨hm, h.blk, h.nod, fun v => ?_, fun hg => ?_, fun v t r hr => ?_, h.main1, h.main2⟩, rfl, rfl, rfl, .inr ⟨t, q, hq, hef, rfl, rfl⟩⟩
    · show v ∈ s.getters ++ steps s.ready ↔ (s.loop.ws.set w (.run t))[v]? = some .idle ∨ (s.loop.ws.set w (.run t))[v]? = some .release
      rw [h.tok, get_set h.lt]
      by_cases hv : v = w <;> simp [hv]
    · have := h.wake hg
      rw [hq, List.length_cons] at this
      show q.length ≤ (steps s.ready).length
      omega
    · show (s.loop.ws.set w _)[v]? = _
      obtain ⟨h1, h2⟩ := h.res v t r hr
      rw [get_set h.lt, if_neg h1]; exact h2

/-- `decreaseCounts` is `decreaseAll`, and wakes a worker for every target that is put into the queue. -/
theorem decreaseCounts_spec {w : Nat} : ∀ (ds : List Nat) {s : ASt}, MInv w 0 s → s.mainWaits = true →
    MInv w 0 (decreaseCounts s ds).1 ∧ (decreaseCounts s ds).1.mainWaits = true ∧ ((decreaseCounts s ds).1.loop, (decreaseCounts s ds).2) = decreaseAll s.loop ds ∧
    (decreaseCounts s ds).1.waiting = s.waiting ∧ (decreaseCounts s ds).1.active = s.active ∧ (decreaseCounts s ds).1.inbox = s.inbox ∧
    results (decreaseCounts s ds).1.ready = results s.ready := by
  intro ds
  induction ds with
  | nil => intro s h hmw; exact ⟨h, hmw, rfl, rfl, rfl, rfl, rfl⟩
  | cons d ds ih =>
    intro s h hmw
    unfold decreaseCounts decreaseAll
    simp only
    generalize hs1 : ({ s with loop := { s.loop with count := fun i => if i = d then s.loop.count d - 1 else s.loop.count i } } : ASt) = s1
    have h1 : MInv w 0 s1 := by subst hs1; exact ⟨h.blk, h.nod, h.lt, h.tok, h.wake, h.res, h.main1, h.main2⟩
    have hmw1 : s1.mainWaits = true := by subst hs1; exact hmw
    have hl1 : s1.loop = { s.loop with count := fun i => if i = d then s.loop.count d - 1 else s.loop.count i } := by subst hs1; rfl
    have hr1 : s1.waiting = s.waiting ∧ s1.active = s.active ∧ s1.inbox = s.inbox ∧ results s1.ready = results s.ready := by subst hs1; simp
    generalize hs2 : (if s.loop.count d - 1 = 0 then put s1 d else s1) = s2
    have h2 : MInv w 0 s2 ∧ s2.mainWaits = true ∧ (s2.waiting = s1.waiting ∧ s2.active = s1.active ∧ s2.inbox = s1.inbox ∧ results s2.ready = results s1.ready) ∧
        s2.loop = if s.loop.count d - 1 = 0 then { s1.loop with queue := s1.loop.queue ++ [d], unfinished := s1.loop.unfinished + 1 } else s1.loop := by
      subst hs2
      split
      · obtain ⟨hu, hnm, hj⟩ := h1.main1 hmw1
        unfold put wakeNext
        cases hg : s1.getters with
        | nil =>
          simp only
          refine ⟨⟨h1.blk, by simpa [hg] using h1.nod, h1.lt, by simpa [hg] using h1.tok, fun hh => absurd rfl hh, h1.res, fun _ => ⟨by simp only; omega, hnm, hj⟩,
            fun hh => by simp only at hh; rw [hmw1] at hh; cases hh⟩, hmw1, by simp, trivial⟩
        | cons v l =>
          have hperm : (l ++ (steps s1.ready ++ [v])).Perm (s1.getters ++ steps s1.ready) := by
            rw [hg, ← List.append_assoc]
            exact List.perm_append_singleton v _
          have hwk := h1.wake (by rw [hg]; simp)
          simp only
          refine ⟨⟨h1.blk, ?_, h1.lt, fun x => ?_, fun hh => ?_, fun x t r hr => ?_, fun _ => ⟨by simp only; omega, ?_, hj⟩,
            fun hh => by simp only at hh; rw [hmw1] at hh; cases hh⟩, hmw1, by simp, trivial⟩
          · simp only [steps_append, steps_step, steps_nil]; exact hperm.nodup_iff.2 h1.nod
          · simp only [steps_append, steps_step, steps_nil]; rw [hperm.mem_iff]; exact h1.tok x
          · simp only [steps_append, steps_step, steps_nil, List.length_append, List.length_singleton]; omega
          · simp only [List.mem_append, List.mem_singleton, reduceCtorEq, or_false] at hr
            exact h1.res x t r hr
          · simpa using hnm
      · exact ⟨h1, hmw1, ⟨rfl, rfl, rfl, rfl⟩, rfl⟩
    obtain ⟨h2, hmw2, hr2, hl2⟩ := h2
    rw [hl1] at hl2
    simp only at hl2
    rw [← hl2]
    split
    · exact ⟨h2, hmw2, rfl, hr2.1.trans hr1.1, hr2.2.1.trans hr1.2.1, hr2.2.2.1.trans hr1.2.2.1, hr2.2.2.2.trans hr1.2.2.2⟩
    · obtain ⟨a, b, c, d', e, f, g⟩ := ih h2 hmw2
      exact ⟨a, b, c, d'.trans (hr2.1.trans hr1.1), e.trans (hr2.2.1.trans hr1.2.1), f.trans (hr2.2.2.1.trans hr1.2.2.1),
        g.trans (hr2.2.2.2.trans hr1.2.2.2)⟩

/-! ### One turn -/

theorem AInv.popStep {s : ASt} (h : AInv s) {w : Nat} {l : List Handle} (hr : s.ready = .step w :: l) : MInv w 1 { s with ready := l } := by
  have hn := h.nod
  rw [hr, steps_step, List.perm_middle.nodup_iff, List.nodup_cons] at hn
  have hw := (h.tok w).1 (by simp [hr])
  have hm : Handle.main ∈ s.ready ↔ Handle.main ∈ l := by simp [hr]
  refine ⟨h.blk, hn.2, ?_, fun v => ?_, fun hg => ?_, fun v t r hv => ⟨?_, h.res v t r (by simp [hr, hv])⟩, fun hh => ?_, fun hh => ?_⟩
  · rcases hw with hw | hw <;> exact (List.getElem?_eq_some_iff.1 hw).1
  · have := h.tok v
    rw [hr, steps_step, List.perm_middle.mem_iff, List.mem_cons] at this
    show v ∈ s.getters ++ steps l ↔ _
    rw [← this]
    constructor
    · intro hv; exact ⟨fun he => hn.1 (he ▸ hv), .inr hv⟩
    · rintro ⟨h1, h2⟩; exact h2.resolve_left h1
  · have := h.wake hg; rw [hr, steps_step, List.length_cons] at this; exact this
  · rintro rfl
    have := h.res v t r (by simp [hr, hv])
    rcases hw with hw | hw <;> rw [this] at hw <;> cases hw
  · obtain ⟨a, b, c⟩ := h.main1 hh; exact ⟨a, fun hx => b (hm.2 hx), c⟩
  · obtain ⟨a, b⟩ := h.main2 hh; exact ⟨a, fun hx => hm.1 (b hx)⟩

theorem AInv.popResult {s : ASt} (h : AInv s) {w t : Nat} {r : Ret} {l : List Handle} (hr : s.ready = .result w t r :: l)
    (hnd : ∀ t' r', Handle.result w t' r' ∉ l) : MInv w 0 { s with ready := l } := by
  have hw := h.res w t r (by simp [hr])
  have hm : Handle.main ∈ s.ready ↔ Handle.main ∈ l := by simp [hr]
  refine ⟨h.blk, by have := h.nod; rw [hr] at this; exact this, (List.getElem?_eq_some_iff.1 hw).1, fun v => ?_, fun hg => ?_,
    fun v t' r' hv => ⟨?_, h.res v t' r' (by simp [hr, hv])⟩, fun hh => ?_, fun hh => ?_⟩
  · have := h.tok v
    rw [hr, steps_result] at this
    show v ∈ s.getters ++ steps l ↔ _
    rw [this]
    refine ⟨fun hx => ⟨?_, hx⟩, fun hx => hx.2⟩
    rintro rfl
    rw [hw] at hx; simp at hx
  · have := h.wake hg; rw [hr, steps_result] at this; exact this
  · rintro rfl; exact hnd _ _ hv
  · obtain ⟨a, b, c⟩ := h.main1 hh; exact ⟨a, fun hx => b (hm.2 hx), c⟩
  · obtain ⟨a, b⟩ := h.main2 hh; exact ⟨a, fun hx => hm.1 (b hx)⟩

theorem MInv.dead {w k : Nat} {s : ASt} (h : MInv w k s) (hk : k = 0) (hm : s.mtx = false) : AInv (setWorker s w .dead) := by
  refine ⟨hm, h.blk, h.nod, fun v => ?_, fun hg => by have := h.wake hg; rw [hk] at this; exact this, fun v t r hr => ?_, h.main1, h.main2⟩
  · show v ∈ s.getters ++ steps s.ready ↔ (s.loop.ws.set w .dead)[v]? = some .idle ∨ (s.loop.ws.set w .dead)[v]? = some .release
    rw [h.tok, get_set h.lt]
    by_cases hv : v = w <;> simp [hv]
  · show (s.loop.ws.set w .dead)[v]? = _
    obtain ⟨h1, h2⟩ := h.res v t r hr
    rw [get_set h.lt, if_neg h1]; exact h2

/-- What a turn with a result does: one event of `Model.lean`, and possibly the beginning of the next work function. -/
theorem workerResult_spec {g : Graph} {dep : Nat → List Nat} (hwf : WF g dep) {n : Nat} {tr : List Ev} {s : ASt} (I : PInv g dep n tr s.loop) {w t : Nat}
    {r : Ret} (h : MInv w 0 s) (hm : s.mtx = false) (hw : s.loop.ws[w]? = some (.run t)) :
    ∃ x, step g s.loop (.finish w t r) = some x ∧ AInv (workerResult g s w t r) ∧ (workerResult g s w t r).active = s.active ∧
      (workerResult g s w t r).inbox = s.inbox ∧ results (workerResult g s w t r).ready = results s.ready ∧
      (((workerResult g s w t r).loop = x ∧ (workerResult g s w t r).waiting = s.waiting) ∨
       ∃ u q, step g x (.start w u) = some (workerResult g s w t r).loop ∧ (workerResult g s w t r).loop.queue = q ∧ x.queue = u :: q ∧
         (workerResult g s w t r).waiting = s.waiting ++ [u]) := by
  have hb := busy_pos hw rfl
  have hunf := I.unf
  have hu : 0 < s.loop.unfinished := by omega
  have hmw : s.mainWaits = true := by
    cases hh : s.mainWaits with
    | true => rfl
    | false => have := (h.main2 hh).1; omega
  by_cases hr : r = .raise
  · subst hr
    refine ⟨{ s.loop with ws := s.loop.ws.set w .dead }, ?_, ?_, ?_⟩
    · simp only [step]; rw [if_pos ⟨hw, by omega⟩]
    · simp only [workerResult, if_true]; exact h.dead rfl hm
    · simp only [workerResult, if_true]; exact ⟨rfl, rfl, rfl, .inl ⟨rfl, rfl⟩⟩
  refine ⟨_, step_finish I hwf hr hw (by omega), ?_⟩
  have hpos := I.count_pos hwf hw
  have key := decreaseAll_eq (g.inv t) (hwf.inv_nodup t) { s.loop with done := fun i => if i = t then true else s.loop.done i } hpos
  generalize hs1 : ({ s with loop := { s.loop with done := fun i => if i = t then true else s.loop.done i }, mtx := true } : ASt) = s1
  have h1 : MInv w 0 s1 := by subst hs1; exact ⟨h.blk, h.nod, h.lt, h.tok, h.wake, h.res, h.main1, h.main2⟩
  obtain ⟨h2, hmw2, hl2, f1, f2, f3, f4⟩ := decreaseCounts_spec (g.inv t) h1 (by subst hs1; exact hmw)
  rw [show s1.loop = { s.loop with done := fun i => if i = t then true else s.loop.done i } by subst hs1; rfl, key] at hl2
  obtain ⟨hl2, hok⟩ := Prod.mk.inj hl2
  generalize hs3 : ({ (decreaseCounts s1 (g.inv t)).1 with mtx := false } : ASt) = s3
  have h3 : MInv w 0 s3 := by subst hs3; exact ⟨h2.blk, h2.nod, h2.lt, h2.tok, h2.wake, h2.res, h2.main1, h2.main2⟩
  have hl3 := hl2
  rw [show (decreaseCounts s1 (g.inv t)).1.loop = s3.loop by rw [← hs3]] at hl3
  obtain ⟨s4, hs4⟩ := taskDone_some (s := s3) (by rw [hl3]; simp only; omega)
  obtain ⟨h4, _⟩ := h3.taskDone (by subst hs3; exact hmw2) hs4
  obtain ⟨e1, e2, e3, e4, e5, e6, _, _⟩ := taskDone_frame hs4
  have hl4 : s4.loop = afterDone g s.loop t := by rw [e1, hl3]; rfl
  have hm4 : s4.mtx = false := by rw [e2, ← hs3]
  have hf : s4.waiting = s.waiting ∧ s4.active = s.active ∧ s4.inbox = s.inbox ∧ results s4.ready = results s.ready := by
    rw [e3, e4, e5, e6, ← hs3]
    simp only
    rw [f1, f2, f3, f4, ← hs1]
    exact ⟨rfl, rfl, rfl, rfl⟩
  have hq4 : (s4.loop.queue.length : Int) ≤ s4.loop.unfinished := by
    rw [hl4]; simp only [afterDone, List.length_append]; omega
  have hrel : ∀ {s5 : ASt} (b : Bool) (o : List Bool), s5 = { s4 with loop := { s4.loop with error := b, onBase := o } } →
      AInv (releaseQueue w s5.loop.queue s5) ∧ (releaseQueue w s5.loop.queue s5).active = s.active ∧ (releaseQueue w s5.loop.queue s5).inbox = s.inbox ∧
      results (releaseQueue w s5.loop.queue s5).ready = results s.ready ∧
      (releaseQueue w s5.loop.queue s5).loop = release { afterDone g s.loop t with error := b, onBase := o } w ∧
      (releaseQueue w s5.loop.queue s5).waiting = s.waiting := by
    rintro s5 b o rfl
    have h5 : MInv w 0 { s4 with loop := { s4.loop with error := b, onBase := o } } :=
      ⟨h4.blk, h4.nod, h4.lt, h4.tok, h4.wake, h4.res, h4.main1, h4.main2⟩
    obtain ⟨a, b', c, d, e, f⟩ := releaseQueue_spec _ h5 hm4 rfl hq4 (fun hp => by
      cases hh : s4.mainWaits with
      | true => rfl
      | false => have := (h4.main2 hh).1; simp only at hp; omega)
    refine ⟨a, d.trans hf.2.1, e.trans hf.2.2.1, f.trans hf.2.2.2, ?_, c.trans hf.1⟩
    rw [b']; simp only [hl4]
  have hun : workerResult g s w t r = if s4.loop.error then releaseQueue w s4.loop.queue s4
      else if r = .fail then releaseQueue w s4.loop.queue { s4 with loop := { s4.loop with error := true } }
      else if (s4.loop.onBase.set w true).all id ∧ s4.loop.queue = [] then
        releaseQueue w s4.loop.queue { s4 with loop := { s4.loop with onBase := s4.loop.onBase.set w true } }
      else workerGet { s4 with loop := { s4.loop with onBase := s4.loop.onBase.set w true } } w := by
    unfold workerResult
    rw [if_neg hr]
    simp only
    rw [if_neg (by simp [hm]), hs1, hs3, hok]
    simp only [hs4]
    rw [hm4]
    simp
  have he4 : s4.loop.error = s.loop.error := by rw [hl4]; rfl
  have hb4 : s4.loop.onBase = s.loop.onBase := by rw [hl4]; rfl
  rw [hun]
  simp only [afterFinish]
  by_cases he : s.loop.error = true
  · rw [if_pos (he4.trans he), if_pos he]
    obtain ⟨a, b, c, d, e, f⟩ := hrel (s5 := s4) s4.loop.error s4.loop.onBase rfl
    refine ⟨a, b, c, d, .inl ⟨?_, f⟩⟩
    rw [e, he4, hb4]; rfl
  · rw [if_neg (by rw [he4]; exact he), if_neg he]
    by_cases hfl : r = .fail
    · rw [if_pos hfl, if_pos hfl]
      obtain ⟨a, b, c, d, e, f⟩ := hrel (s5 := { s4 with loop := { s4.loop with error := true } }) true s4.loop.onBase rfl
      refine ⟨a, b, c, d, .inl ⟨?_, f⟩⟩
      rw [e, hb4]; rfl
    · rw [if_neg hfl, if_neg hfl]
      have hc : ((s4.loop.onBase.set w true).all id = true ∧ s4.loop.queue = []) ↔
          (((afterDone g s.loop t).onBase.set w true).all id = true ∧ (afterDone g s.loop t).queue = []) := by rw [hl4]
      by_cases hall : ((afterDone g s.loop t).onBase.set w true).all id = true ∧ (afterDone g s.loop t).queue = []
      · rw [if_pos (hc.2 hall), if_pos hall]
        obtain ⟨a, b, c, d, e, f⟩ := hrel (s5 := { s4 with loop := { s4.loop with onBase := s4.loop.onBase.set w true } }) s4.loop.error (s4.loop.onBase.set w true) rfl
        refine ⟨a, b, c, d, .inl ⟨?_, f⟩⟩
        rw [e, he4, hb4]; rfl
      · rw [if_neg (fun hh => hall (hc.1 hh)), if_neg hall]
        have h5 : MInv w 1 { s4 with loop := { s4.loop with onBase := s4.loop.onBase.set w true } } :=
          MInv.mono (k := 0) ⟨h4.blk, h4.nod, h4.lt, h4.tok, h4.wake, h4.res, h4.main1, h4.main2⟩ (by omega)
        obtain ⟨a, b, c, d, hh⟩ := workerGet_spec h5 hm4 (fun hx => absurd (he4.symm.trans hx) he)
        refine ⟨a, b.trans hf.2.1, c.trans hf.2.2.1, d.trans hf.2.2.2, ?_⟩
        rcases hh with ⟨_, hl, hwt⟩ | ⟨u, q, hq, hef, hl, hwt⟩
        · left
          refine ⟨?_, hwt.trans hf.1⟩
          rw [hl]; simp only [hl4]
        · right
          simp only at hq
          rw [hl4] at hq
          have hst : ({ { afterDone g s.loop t with onBase := (afterDone g s.loop t).onBase.set w true } with
              ws := (afterDone g s.loop t).ws.set w .idle } : St).ws[w]? = some .idle := by
            simp only
            rw [get_set (by rw [← hl4]; exact h4.lt), if_pos rfl]
          refine ⟨u, q, ?_, ?_, hq, hwt.trans (by rw [← hf.1])⟩
          · rw [step_start hst hq (by rw [← he4] at he; simpa [← hl4] using he) ?_, hl]
            · simp [afterStart, hl4, List.set_set]
            · simp only [afterDone] at hq ⊢
              have : (s.loop.queue ++ (g.inv t).filter (fun i => s.loop.count i = 1)).length = q.length + 1 := by rw [hq]; rfl
              rw [List.length_append] at this
              omega
          · rw [hl]; rfl

/-! ### Refinement -/

theorem ainit_inv {g : Graph} (hg : g.roots ≠ []) (n : Nat) : AInv (ainit g n) := by
  have hs : ∀ l : List Nat, steps (l.map Handle.step) = l := by
    intro l; induction l with
    | nil => rfl
    | cons a l ih => simp [ih]
  refine ⟨rfl, rfl, ?_, fun w => ?_, fun h => absurd rfl h, ?_, fun _ => ⟨?_, by simp [ainit], rfl⟩, fun h => by cases h⟩
  · simp [ainit, hs, List.nodup_range]
  · simp only [ainit, hs, List.nil_append, List.mem_range, init, List.getElem?_replicate]
    by_cases hw : w < n <;> simp [hw]
  · intro w t r h; simp [ainit] at h
  · have := List.length_pos_iff.2 hg
    simp only [ainit, init]; omega

/-- Every execution is one of `Threads.lean`, in which the threads do the same. -/
theorem refines {g : Graph} {dep : Nat → List Nat} {n P : Nat} (hwf : WF g dep) (hg : g.roots ≠ []) {tr : List AEv} {s : ASt} (hx : AExec g n P tr s) :
    AInv s ∧ ∃ ptr, PExec g n P ptr s.abs ∧ ptr.filterMap PEv.thread = tr.filterMap AEv.thread := by
  induction hx with
  | init => exact ⟨ainit_inv hg n, [], by
      have : (ainit g n).abs = pinit g n := by
        have hr : ∀ l : List Nat, results (l.map Handle.step) = [] := by
          intro l; induction l with
          | nil => rfl
          | cons a l ih => simp [ih]
        simp [ASt.abs, ainit, pinit, hr]
      rw [this]; exact .init, rfl⟩
  | @snoc tr s e s' _ hst ih =>
    obtain ⟨A, ptr, hp, hproj⟩ := ih
    have T := tinv hwf hp
    have I := inv_of_exec hwf hp.loop
    cases e with
    | begin t =>
      simp only [astep] at hst
      split at hst
      · rename_i t' q hw
        split at hst
        · rename_i hc
          cases hst
          refine ⟨⟨A.mtx, A.blk, A.nod, A.tok, A.wake, A.res, A.main1, A.main2⟩, ptr ++ [.begin t], .snoc hp ?_, by simp [hproj, PEv.thread, AEv.thread]⟩
          simp only [pstep, ASt.abs, hw]
          rw [if_pos hc]
        · cases hst
      · cases hst
    | ret t r =>
      simp only [astep] at hst
      split at hst
      · rename_i hc
        cases hst
        refine ⟨⟨A.mtx, A.blk, A.nod, A.tok, A.wake, A.res, A.main1, A.main2⟩, ptr ++ [.ret t r], .snoc hp ?_, by simp [hproj, PEv.thread, AEv.thread]⟩
        simp only [pstep, ASt.abs]
        exact (if_pos hc).trans (by simp)
      · cases hst
    | deliver w =>
      simp only [astep] at hst
      split at hst
      · rename_i t r q hi
        split at hst
        · rename_i hc
          cases hst
          refine ⟨⟨A.mtx, A.blk, by simpa using A.nod, by simpa using A.tok, by simpa using A.wake, fun v t' r' hr => ?_, by simpa using A.main1,
            by simpa using A.main2⟩, ptr, ?_, by simp [hproj, AEv.thread]⟩
          · simp only [List.mem_append, List.mem_singleton] at hr
            rcases hr with hr | hr
            · exact A.res v t' r' hr
            · cases hr; exact hc.1
          · have : ({ s with inbox := q, ready := s.ready ++ [.result w t r] } : ASt).abs = s.abs := by
              simp [ASt.abs, hi]
            rw [this]; exact hp
        · cases hst
      · cases hst
    | turn =>
      simp only [astep] at hst
      split at hst
      · cases hst
      rename_i hj
      split at hst
      · cases hst
      · rename_i l hl
        cases hst
        have hmw : s.mainWaits = false := by
          cases hh : s.mainWaits with
          | false => rfl
          | true => exact absurd (by simp [hl]) (A.main1 hh).2.1
        refine ⟨⟨A.mtx, A.blk, by simpa [hl] using A.nod, by simpa [hl] using A.tok, by simpa [hl] using A.wake, fun v t r hr => A.res v t r (by simp [hl]; exact hr),
          fun hh => ?_, fun _ => ⟨(A.main2 hmw).1, fun hh => by cases hh⟩⟩, ptr, ?_, by simp [hproj, AEv.thread]⟩
        · simp only at hh; rw [hmw] at hh; cases hh
        · have : ({ s with ready := l, joined := true } : ASt).abs = s.abs := by simp [ASt.abs, hl]
          rw [this]; exact hp
      · rename_i w l hl
        have hM := A.popStep hl
        have hab : ({ s with ready := l } : ASt).abs = s.abs := by simp [ASt.abs, hl]
        split at hst
        · rename_i hw
          cases hst
          obtain ⟨a, b, c, d, hh⟩ := workerGet_spec hM A.mtx I.errQueue
          refine ⟨a, ?_⟩
          rcases hh with ⟨_, hlp, hwt⟩ | ⟨t, q, hq, hef, hlp, hwt⟩
          · refine ⟨ptr, ?_, by simp [hproj, AEv.thread]⟩
            have : (workerGet { s with ready := l } w).abs = s.abs := by
              rw [← hab]
              simp only [ASt.abs, b, c, d, hwt, hlp]
              congr 2
              apply List.ext_getElem?
              intro v
              rw [get_set hM.lt]
              split
              · rename_i hv; subst hv; exact hw.symm
              · rfl
            rw [this]; exact hp
          · refine ⟨ptr ++ [.loop (.start w t)], .snoc hp ?_, by simp [hproj]; rfl⟩
            have hunf := I.unf
            simp only [ASt.abs] at hunf
            simp only at hq hw hef
            rw [hq, List.length_cons] at hunf
            simp only [pstep, ASt.abs, b, c, d, hwt, hlp]
            rw [step_start (q := q) hw hq hef (by omega), hl]
            simp
        · split at hst
          · rename_i hnw hw
            cases hst
            have hq : s.loop.queue = [] := by
              by_cases he : s.loop.error = true
              · exact I.errQueue he
              · have := I.rel (by simpa [ASt.abs] using he) ⟨w, hw⟩
                have hunf := I.unf
                simp only [ASt.abs] at hunf this
                exact List.length_eq_zero_iff.1 (by omega)
            obtain ⟨a, b, c, d, e, f⟩ := releaseQueue_spec s.loop.queue hM A.mtx rfl (by
              rw [hq]; have hunf := I.unf; simp only [ASt.abs] at hunf; simp only [List.length_nil]; omega) (fun hu => by
              cases hh : s.mainWaits with
              | true => rfl
              | false => have := (A.main2 hh).1; simp only at hu; omega)
            refine ⟨a, ptr, ?_, by simp [hproj, AEv.thread]⟩
            have : (releaseQueue w s.loop.queue { s with ready := l }).abs = s.abs := by
              rw [← hab]
              simp only [ASt.abs, b, c, d, e, f, release]
              congr 1
              rw [show s.loop.ws.set w .release = s.loop.ws from ?_]
              · simp only [hq, List.length_nil]
                cases hs : s.loop
                simp_all
              · apply List.ext_getElem?
                intro v
                rw [get_set hM.lt]
                split
                · rename_i hv; subst hv; exact hw.symm
                · rfl
            rw [this]; exact hp
          · cases hst
      · rename_i w t r l hl
        split at hst
        · rename_i hw
          cases hst
          have hnd : ∀ t' r', Handle.result w t' r' ∉ l := by
            intro t' r' hm
            have h1 := A.res w t' r' (by simp [hl, hm])
            rw [show s.loop.ws[w]? = some (.run t) from hw] at h1
            cases h1
            have hn := (List.nodup_append.1 T.nodup).2.1
            simp only [ASt.abs, hl, results_result, List.cons_append, List.map_cons, List.nodup_cons, List.mem_map, List.mem_append] at hn
            refine hn.1 ⟨(t, r'), .inl ?_, rfl⟩
            simp only [results, List.mem_filterMap]
            exact ⟨_, hm, rfl⟩
          obtain ⟨x, hstep, a, b, c, d, hh⟩ := workerResult_spec hwf (s := { s with ready := l }) (r := r) (by exact I) (A.popResult hl hnd) A.mtx hw
          refine ⟨a, ?_⟩
          have hp1 : PExec g n P (ptr ++ [.loop (.finish w t r)]) ⟨x, s.waiting, s.active, results l ++ s.inbox⟩ := by
            refine .snoc hp ?_
            simp only [pstep, ASt.abs, hl, results_result, List.cons_append, if_true]
            rw [show step g s.loop (.finish w t r) = some x from hstep]
            rfl
          rcases hh with ⟨h1, h2⟩ | ⟨u, q, h1, h2, h3, h4⟩
          · refine ⟨ptr ++ [.loop (.finish w t r)], ?_, by simp [hproj]; rfl⟩
            simp only [ASt.abs, b, c, d, h1, h2]; exact hp1
          · refine ⟨ptr ++ [.loop (.finish w t r)] ++ [.loop (.start w u)], .snoc hp1 ?_, by simp [hproj]; rfl⟩
            simp only [pstep, h1, ASt.abs, b, c, d, h4]
            rfl
        · cases hst

/-! ### Transfer -/

section
variable {order : Nat → List Nat → List Nat} {lim n P : Nat} {ts : List DTarget} {g : Graph} {tr : List AEv} {s : ASt}

theorem roots_ne {dep : Nat → List Nat} (hwf : WF g dep) (hr : HasRoot ts) (hsz : g.size = ts.length) (hdep : ∀ i j, j ∈ dep i ↔ DependsOn ts i j) : g.roots ≠ [] := by
  obtain ⟨t, ht, hd⟩ := hr
  obtain ⟨i, hi, rfl⟩ := List.getElem_of_mem ht
  have : i ∈ g.roots := (hwf.mem_roots i).2 ⟨by rw [hsz]; exact hi, by
    apply List.eq_nil_iff_forall_not_mem.2
    intro j hj
    obtain ⟨t', nm, h1, h2, _⟩ := (hdep i j).1 hj
    rw [List.getElem?_eq_getElem hi] at h1
    cases h1
    rw [hd] at h2; cases h2⟩
  exact List.ne_nil_of_mem this

/-- the invariant, and the execution of `Threads.lean` -/
theorem AExec.sound (ho : IsOrder order) (h : construct order lim ts = .ok g) (hx : AExec g n P tr s) :
    AInv s ∧ (s.joined = true → s.loop.returned) ∧ ∃ ptr, PExec g n P ptr s.abs ∧ ptr.filterMap PEv.thread = tr.filterMap AEv.thread := by
  obtain ⟨_, hr, _, hsz, dep, hwf, hdep⟩ := accepted ho h
  obtain ⟨A, hp⟩ := refines hwf (roots_ne hwf hr hsz hdep) hx
  refine ⟨A, fun hj => ?_, hp⟩
  cases hm : s.mainWaits with
  | true => have := (A.main1 hm).2.2; rw [hj] at this; cases this
  | false => exact (A.main2 hm).1

theorem mem_begin {ptr : List PEv} (h : ptr.filterMap PEv.thread = tr.filterMap AEv.thread) (t : Nat) : AEv.begin t ∈ tr ↔ PEv.begin t ∈ ptr := by
  have h1 : AEv.begin t ∈ tr ↔ PEv.begin t ∈ tr.filterMap AEv.thread := by
    rw [List.mem_filterMap]
    exact ⟨fun hm => ⟨_, hm, rfl⟩, fun ⟨x, hm, hx⟩ => by cases x <;> simp [AEv.thread] at hx; subst hx; exact hm⟩
  rw [h1, ← h, List.mem_filterMap]
  exact ⟨fun ⟨x, hm, hx⟩ => by cases x <;> simp [PEv.thread] at hx; subst hx; exact hm, fun hm => ⟨_, hm, rfl⟩⟩

theorem mem_ret {ptr : List PEv} (h : ptr.filterMap PEv.thread = tr.filterMap AEv.thread) (t : Nat) (r : Ret) : AEv.ret t r ∈ tr ↔ PEv.ret t r ∈ ptr := by
  have h1 : AEv.ret t r ∈ tr ↔ PEv.ret t r ∈ tr.filterMap AEv.thread := by
    rw [List.mem_filterMap]
    exact ⟨fun hm => ⟨_, hm, rfl⟩, fun ⟨x, hm, hx⟩ => by cases x <;> simp [AEv.thread] at hx; obtain ⟨rfl, rfl⟩ := hx; exact hm⟩
  rw [h1, ← h, List.mem_filterMap]
  exact ⟨fun ⟨x, hm, hx⟩ => by cases x <;> simp [PEv.thread] at hx; obtain ⟨rfl, rfl⟩ := hx; exact hm, fun hm => ⟨_, hm, rfl⟩⟩

theorem busy_iff_thread {ptr : List PEv} (h : ptr.filterMap PEv.thread = tr.filterMap AEv.thread) (t : Nat) : ABusy tr t ↔ Busy ptr t := by
  unfold ABusy Busy
  rw [mem_begin h]
  exact and_congr_right fun _ => forall_congr' fun r => not_congr (mem_ret h t r)

/-- where something is in an execution of `Threads.lean` -/
theorem thread_split {ptr : List PEv} {pre post : List AEv} {e : AEv} {pe : PEv} (he : e.thread = some pe)
    (h : ptr.filterMap PEv.thread = (pre ++ e :: post).filterMap AEv.thread) :
    ∃ ppre ppost, ptr = ppre ++ pe :: ppost ∧ ppre.filterMap PEv.thread = pre.filterMap AEv.thread ∧
      ppost.filterMap PEv.thread = post.filterMap AEv.thread := by
  rw [List.filterMap_append, List.filterMap_cons, he, List.filterMap_eq_append_iff] at h
  obtain ⟨l1, l2, rfl, h1, h2⟩ := h
  rw [List.filterMap_eq_cons_iff] at h2
  obtain ⟨l3, a, l4, rfl, h3, h4, h5⟩ := h2
  have ha : a = pe := by
    cases a <;> simp [PEv.thread] at h4 <;> exact h4
  subst ha
  refine ⟨l1 ++ l3, l4, by simp, ?_, h5⟩
  rw [List.filterMap_append, h1, List.filterMap_eq_nil_iff.2 h3, List.append_nil]

theorem AExec.prefix (h : AExec g n P tr s) : ∀ pre post, tr = pre ++ post → ∃ s', AExec g n P pre s' := by
  induction h with
  | init =>
    intro pre post h
    have : pre = [] := by cases pre <;> simp_all
    subst this; exact ⟨_, .init⟩
  | @snoc tr s e s' hex hst ih =>
    intro pre post h
    rcases List.eq_nil_or_concat post with rfl | ⟨post', e', rfl⟩
    · simp at h; subst h; exact ⟨_, .snoc hex hst⟩
    · rw [List.concat_eq_append, ← List.append_assoc] at h
      exact ih pre post' (List.append_inj_left' h rfl)

/-! ### C01-C06, C08, C09 -/

/-- **C01** for the event loop: when the work function of `t` begins, that of each dependency has returned, and not `False`. -/
theorem C01_asyncio (ho : IsOrder order) (h : construct order lim ts = .ok g) (hx : AExec g n P tr s)
    (pre post : List AEv) (t d : Nat) (htr : tr = pre ++ .begin t :: post) (hd : DependsOn ts t d) : AEv.ret d .ok ∈ pre := by
  obtain ⟨_, _, ptr, hp, hproj⟩ := hx.sound ho h
  subst htr
  obtain ⟨a, b, hab, ha, _⟩ := thread_split (e := .begin t) rfl hproj
  exact (mem_ret ha d .ok).2 (C01_threads ho h hp a b t d hab hd)

/-- **C02** for the event loop: a work function begins at most once and ends at most once, and only after it has begun. -/
theorem C02_asyncio (ho : IsOrder order) (h : construct order lim ts = .ok g) (hx : AExec g n P tr s) (pre post : List AEv) (t : Nat) :
    (tr = pre ++ .begin t :: post → AEv.begin t ∉ pre ++ post) ∧
    ∀ r, tr = pre ++ .ret t r :: post → AEv.begin t ∈ pre ∧ ∀ r', AEv.ret t r' ∉ pre ++ post := by
  obtain ⟨_, _, ptr, hp, hproj⟩ := hx.sound ho h
  refine ⟨fun htr hm => ?_, fun r htr => ?_⟩
  · subst htr
    obtain ⟨a, b, hab, ha, hb⟩ := thread_split (e := .begin t) rfl hproj
    refine (C02_threads ho h hp a b t).1 hab ((mem_begin (tr := pre ++ post) ?_ t).1 hm)
    simp [ha, hb]
  · subst htr
    obtain ⟨a, b, hab, ha, hb⟩ := thread_split (e := .ret t r) rfl hproj
    obtain ⟨h1, h2⟩ := (C02_threads ho h hp a b t).2 r hab
    exact ⟨(mem_begin ha t).2 h1, fun r' hm => h2 r' ((mem_ret (tr := pre ++ post) (by simp [ha, hb]) t r').1 hm)⟩

/-- **C03** for the event loop: if `exec()` returns `True`, every work function has returned, and none has returned `False` or raised. -/
theorem C03_asyncio (ho : IsOrder order) (h : construct order lim ts = .ok g) (hx : AExec g n P tr s) (hret : s.joined = true)
    (hv : s.loop.verdict = true) : (∀ t < ts.length, AEv.ret t .ok ∈ tr) ∧ ∀ t r, AEv.ret t r ∈ tr → r = .ok := by
  obtain ⟨_, hj, ptr, hp, hproj⟩ := hx.sound ho h
  obtain ⟨h1, h2⟩ := C03_threads ho h hp (hj hret) hv
  exact ⟨fun t ht => (mem_ret hproj t .ok).2 (h1 t ht), fun t r hm => h2 t r ((mem_ret hproj t r).1 hm)⟩

theorem begins_thread {ptr : List PEv} (h : ptr.filterMap PEv.thread = tr.filterMap AEv.thread) : begins ptr = abegins tr := by
  have h1 : ∀ l : List PEv, begins l = begins (l.filterMap PEv.thread) := by
    intro l; induction l with
    | nil => rfl
    | cons e l ih =>
      cases e with
      | loop e => exact ih
      | begin t => exact congrArg (t :: ·) ih
      | ret t r => exact ih
  have h2 : ∀ l : List AEv, abegins l = begins (l.filterMap AEv.thread) := by
    intro l; induction l with
    | nil => rfl
    | cons e l ih =>
      cases e with
      | begin t => exact congrArg (t :: ·) ih
      | ret t r => exact ih
      | deliver w => exact ih
      | turn => exact ih
  rw [h1, h2, h]

/-- **C04** for the event loop: after a work function has returned `False`, at most `n - 1` others begin (one for each other worker); and if
`exec()` returns it returns `False`. -/
theorem C04_asyncio (ho : IsOrder order) (h : construct order lim ts = .ok g) (hx : AExec g n P tr s) (t : Nat) :
    (∀ pre post, tr = pre ++ .ret t .fail :: post → (abegins post).length ≤ n - 1) ∧
    (AEv.ret t .fail ∈ tr → s.joined = true → s.loop.verdict = false) := by
  obtain ⟨_, hj, ptr, hp, hproj⟩ := hx.sound ho h
  refine ⟨fun pre post htr => ?_, fun hm hret => ?_⟩
  · subst htr
    obtain ⟨a, b, hab, ha, hb⟩ := thread_split (e := .ret t .fail) rfl hproj
    rw [← begins_thread hb]
    exact (C04_threads ho h hp t).1 a b hab
  · exact (C04_threads ho h hp t).2 ((mem_ret hproj t .fail).1 hm) (hj hret)

/-- **C05** for the event loop: what depends, directly or not, on a target whose work function returned `False` or raised never begins. -/
theorem C05_asyncio (ho : IsOrder order) (h : construct order lim ts = .ok g) (hx : AExec g n P tr s) (t u : Nat) (r : Ret)
    (hr : r ≠ .ok) (hf : AEv.ret t r ∈ tr) (hu : TransGen (DependsOn ts) u t) : AEv.begin u ∉ tr := by
  obtain ⟨_, _, ptr, hp, hproj⟩ := hx.sound ho h
  exact fun hm => C05_threads ho h hp t u r hr ((mem_ret hproj t r).1 hf) hu ((mem_begin hproj u).1 hm)

/-- **C06** for the event loop: if the results of the work functions are those of `out`, the value of `exec()` is determined by them. -/
theorem C06_asyncio (ho : IsOrder order) (h : construct order lim ts = .ok g) (out : Nat → Ret) (hx : AExec g n P tr s)
    (hf : ∀ t r, AEv.ret t r ∈ tr → r = out t) (hret : s.joined = true) : s.loop.verdict = true ↔ ∀ t < ts.length, out t ≠ .fail := by
  obtain ⟨_, hj, ptr, hp, hproj⟩ := hx.sound ho h
  exact C06_threads ho h out hp (fun t r hm => hf t r ((mem_ret hproj t r).2 hm)) (hj hret)

/-- **C08** is violated for the event loop: once a work function has raised, `exec()` never returns. -/
theorem C08_asyncio (ho : IsOrder order) (h : construct order lim ts = .ok g) (hx : AExec g n P tr s) (t : Nat) (hr : AEv.ret t .raise ∈ tr) :
    s.joined = false := by
  obtain ⟨_, hj, ptr, hp, hproj⟩ := hx.sound ho h
  cases hh : s.joined with
  | false => rfl
  | true => exact absurd (hj hh) (C08_threads ho h hp t ((mem_ret hproj t .raise).1 hr))

/-- **C09** for the event loop: at most `n` work functions are executed at any moment, and at most as many as the pool has threads. -/
theorem C09_asyncio (ho : IsOrder order) (h : construct order lim ts = .ok g) (hx : AExec g n P tr s)
    (pre post : List AEv) (htr : tr = pre ++ post) (l : List Nat) (hl : l.Nodup) (hr : ∀ t ∈ l, ABusy pre t) :
    l.length ≤ n ∧ l.length ≤ P := by
  obtain ⟨s1, h1⟩ := hx.prefix pre post htr
  obtain ⟨_, _, ptr, hp, hproj⟩ := h1.sound ho h
  exact C09_threads ho h hp ptr [] (by simp) l hl fun t ht => (busy_iff_thread hproj t).1 (hr t ht)

/-- No worker ever waits for the lock. -/
theorem never_blocked (ho : IsOrder order) (h : construct order lim ts = .ok g) (hx : AExec g n P tr s) : s.blocked = [] ∧ s.mtx = false :=
  ⟨(hx.sound ho h).1.blk, (hx.sound ho h).1.mtx⟩

/-! ### C07 -/

/-- handles that are there or will be because of `queue.join` -/
def ASt.todo (s : ASt) : Nat := s.ready.length + if s.mainWaits then 1 else 0

theorem todo_taskDone {s s' : ASt} (h : taskDone s = some s') : s'.todo = s.todo := by
  unfold taskDone at h
  split at h
  · cases h
  · simp only at h
    split at h
    · rename_i hc
      cases h
      simp only [ASt.todo, List.length_append, List.length_singleton]
      rw [if_pos hc.2]; simp
    · cases h; rfl

theorem todo_release {w : Nat} : ∀ (q : List Nat) (s : ASt), (releaseQueue w q s).todo = s.todo := by
  intro q
  induction q with
  | nil => intro s; rfl
  | cons t q ih =>
    intro s
    rw [releaseQueue]
    split
    · rfl
    · rename_i s' hs
      rw [ih, todo_taskDone hs]; rfl

theorem todo_get (s : ASt) (w : Nat) : (workerGet s w).todo = s.todo := by
  unfold workerGet
  split
  · rfl
  · simp only
    split
    · rw [todo_release]; rfl
    · split <;> rfl

/-- Every event uses up some of this. -/
def ASt.rest (g : Graph) (s : ASt) : Nat :=
  s.todo + 2 * s.inbox.length + 3 * s.active.length + 4 * s.waiting.length + 4 * s.loop.queue.length +
    5 * (List.range g.size).countP fun i => 0 < s.loop.count i

theorem rest_taskDone {s s' : ASt} (h : taskDone s = some s') : s'.rest g = s.rest g := by
  obtain ⟨f1, _, f3, f4, f5, _⟩ := taskDone_frame h
  simp only [ASt.rest, todo_taskDone h, f1, f3, f4, f5]

theorem rest_release {w : Nat} : ∀ (q : List Nat) (s : ASt), s.loop.queue = q → (releaseQueue w q s).rest g ≤ s.rest g := by
  intro q
  induction q with
  | nil => intro s _; exact Nat.le_refl _
  | cons t q ih =>
    intro s hq
    rw [releaseQueue]
    split
    · exact Nat.le_refl _
    · rename_i s' hs
      have h1 := rest_taskDone (g := g) hs
      have h2 := ih s' (by rw [(taskDone_frame hs).1])
      simp only [ASt.rest, ASt.todo, hq, List.length_cons] at h1 h2 ⊢
      omega

theorem rest_get (s : ASt) (w : Nat) : (workerGet s w).rest g ≤ s.rest g := by
  unfold workerGet
  split
  · exact Nat.le_refl _
  · rename_i t q hq
    simp only
    have h1 : ({ s with loop := { s.loop with queue := q } } : ASt).rest g + 4 = s.rest g := by
      simp only [ASt.rest, ASt.todo, hq, List.length_cons]; omega
    split
    · exact (rest_release (g := g) (w := w) q { s with loop := { s.loop with queue := q } } rfl).trans (by rw [← h1]; exact Nat.le_add_right _ _)
    · split
      · rw [← h1]; exact Nat.le_add_right _ _
      · rw [← h1]
        show s.todo + 2 * s.inbox.length + 3 * s.active.length + 4 * (s.waiting ++ [t]).length + 4 * q.length +
            5 * ((List.range g.size).countP fun i => 0 < s.loop.count i) ≤
          s.todo + 2 * s.inbox.length + 3 * s.active.length + 4 * s.waiting.length + 4 * q.length +
            5 * ((List.range g.size).countP fun i => 0 < s.loop.count i) + 4
        rw [List.length_append, List.length_singleton]
        omega

theorem rest_dec : ∀ (ds : List Nat) (s : ASt), (∀ d ∈ ds, d < g.size) → (decreaseCounts s ds).1.rest g ≤ s.rest g := by
  intro ds
  induction ds with
  | nil => intro s _; exact Nat.le_refl _
  | cons d ds ih =>
    intro s hd
    unfold decreaseCounts
    simp only
    have hmono : ∀ x ∈ List.range g.size, decide (0 < if x = d then s.loop.count d - 1 else s.loop.count x) = true →
        decide (0 < s.loop.count x) = true := by
      intro x _ hx
      simp only [decide_eq_true_eq] at hx ⊢
      split at hx
      · rename_i he; subst he; omega
      · exact hx
    generalize hs1 : ({ s with loop := { s.loop with count := fun i => if i = d then s.loop.count d - 1 else s.loop.count i } } : ASt) = s1
    generalize hs2 : (if s.loop.count d - 1 = 0 then put s1 d else s1) = s2
    have h2 : s2.rest g ≤ s.rest g := by
      subst hs2
      split
      · rename_i hc
        have hlt := countP_lt hmono ⟨d, List.mem_range.2 (hd d (by simp)), by simp [hc], by simp; omega⟩
        subst hs1
        unfold put wakeNext
        split <;> simp only [ASt.rest, ASt.todo, List.length_append, List.length_singleton] <;> omega
      · have hle := List.countP_mono_left hmono
        subst hs1
        simp only [ASt.rest, ASt.todo]
        omega
    split
    · exact h2
    · exact (ih s2 fun x hx => hd x (by simp [hx])).trans h2

theorem rest_result (s : ASt) (w t : Nat) (r : Ret) (hi : ∀ d ∈ g.inv t, d < g.size) : (workerResult g s w t r).rest g ≤ s.rest g := by
  unfold workerResult
  split
  · exact Nat.le_refl _
  · simp only
    split
    · exact Nat.le_refl _
    · have h1 := rest_dec (g.inv t) { s with loop := { s.loop with done := fun i => if i = t then true else s.loop.done i }, mtx := true } hi
      generalize hx : decreaseCounts _ _ = x at h1 ⊢
      split
      · exact h1
      · split
        · exact h1
        · rename_i s' hs
          have h2 : s'.rest g ≤ s.rest g := (rest_taskDone (g := g) hs).le.trans h1
          split
          · exact (rest_release _ _ rfl).trans h2
          · split
            · exact (rest_release (w := w) s'.loop.queue { s' with loop := { s'.loop with error := true } } rfl).trans h2
            · split
              · exact h2
              · split
                · exact (rest_release (w := w) s'.loop.queue { s' with loop := { s'.loop with onBase := s'.loop.onBase.set w true } } rfl).trans h2
                · exact (rest_get _ _).trans h2

theorem rest_step {dep : Nat → List Nat} (hwf : WF g dep) (hg : g.roots ≠ []) (hx : AExec g n P tr s) {e : AEv} {s' : ASt}
    (hst : astep g P s e = some s') : s'.rest g + 1 ≤ s.rest g := by
  obtain ⟨A, ptr, hp, _⟩ := refines hwf hg hx
  have I := inv_of_exec hwf hp.loop
  cases e with
  | begin t =>
    simp only [astep] at hst
    split at hst
    · rename_i t' q hw
      split at hst
      · cases hst
        simp only [ASt.rest, ASt.todo, hw, List.length_append, List.length_cons, List.length_nil]; omega
      · cases hst
    · cases hst
  | ret t r =>
    simp only [astep] at hst
    split at hst
    · rename_i hc
      cases hst
      have := List.length_erase_of_mem hc
      have := List.length_pos_of_mem hc
      simp only [ASt.rest, ASt.todo, List.length_append, List.length_cons, List.length_nil]; omega
    · cases hst
  | deliver w =>
    simp only [astep] at hst
    split at hst
    · rename_i t r q hi
      split at hst
      · cases hst
        simp only [ASt.rest, ASt.todo, hi, List.length_append, List.length_cons, List.length_nil]; omega
      · cases hst
    · cases hst
  | turn =>
    simp only [astep] at hst
    split at hst
    · cases hst
    have hpop : ∀ {x : Handle} {l : List Handle}, s.ready = x :: l → ({ s with ready := l } : ASt).rest g + 1 = s.rest g := by
      intro x l hl
      simp only [ASt.rest, ASt.todo, hl, List.length_cons]; omega
    split at hst
    · cases hst
    · rename_i l hl
      cases hst
      exact (hpop hl).le
    · rename_i w l hl
      rw [← hpop hl]
      split at hst
      · cases hst; exact Nat.succ_le_succ (rest_get (g := g) { s with ready := l } w)
      · split at hst
        · cases hst; exact Nat.succ_le_succ (rest_release (g := g) (w := w) s.loop.queue { s with ready := l } rfl)
        · cases hst
    · rename_i w t r l hl
      rw [← hpop hl]
      split at hst
      · rename_i hw
        cases hst
        have ht := I.startedLt t (I.runs w t hw).1
        exact Nat.succ_le_succ (rest_result (g := g) { s with ready := l } w t r fun d hd => ((hwf.mem_inv d t ht).1 hd).1)
      · cases hst

theorem rest_init {dep : Nat → List Nat} (hwf : WF g dep) : (ainit g n).rest g ≤ n + 5 * g.size + 1 := by
  have h1 := List.length_eq_countP_add_countP (fun i => decide (0 < (init g n).count i)) (l := List.range g.size)
  have h2 : g.roots.length ≤ (List.range g.size).countP fun i => ¬ decide (0 < (init g n).count i) = true := by
    rw [List.countP_eq_length_filter]
    refine (hwf.roots_nodup.subperm fun i hi => ?_).length_le
    obtain ⟨h3, h4⟩ := (hwf.mem_roots i).1 hi
    simp [init, h3, hwf.depcount i h3, h4]
  rw [List.length_range] at h1
  have h3 : (ainit g n).rest g = n + 1 + 4 * g.roots.length + 5 * (List.range g.size).countP fun i => decide (0 < (init g n).count i) := by
    simp [ASt.rest, ASt.todo, ainit, init]
  rw [h3]
  omega

/-- **C07** for the event loop: if there is a worker and a thread, the number of events is bounded; and as long as nothing was raised and `exec()` has
not returned, the event loop has something to do, or a work function can begin, or some work function is being executed, which may end
with any result.  In particular no worker that is needed waits for the queue for ever. -/
theorem C07_asyncio (ho : IsOrder order) (h : construct order lim ts = .ok g) (hn : 0 < n) (hP : 0 < P) (hx : AExec g n P tr s) :
    tr.length ≤ n + 5 * ts.length + 1 ∧
    ((∀ t, AEv.ret t .raise ∉ tr) → s.joined = false →
      (∃ s', astep g P s .turn = some s') ∨ (∃ w s', astep g P s (.deliver w) = some s') ∨ (∃ t s', astep g P s (.begin t) = some s') ∨
      ∃ t, ABusy tr t ∧ ∀ r, ∃ s', astep g P s (.ret t r) = some s') := by
  obtain ⟨_, hr, _, hsz, dep, hwf, hdep⟩ := accepted ho h
  have hg := roots_ne hwf hr hsz hdep
  constructor
  · have key : tr.length + s.rest g ≤ n + 5 * g.size + 1 := by
      induction hx with
      | init => simpa using rest_init (n := n) hwf
      | snoc hx hst ih =>
        have := rest_step hwf hg hx hst
        rw [List.length_append, List.length_singleton]; omega
    rw [← hsz]; omega
  · intro hnr hj
    obtain ⟨A, ptr, hp, hproj⟩ := refines hwf hg hx
    have I := inv_of_exec hwf hp.loop
    cases hrd : s.ready with
    | cons x l =>
      left
      simp only [astep, hj, hrd, Bool.false_eq_true, if_false]
      cases x with
      | main => exact ⟨_, rfl⟩
      | step w =>
        simp only
        rcases (A.tok w).1 (by simp [hrd]) with hw | hw
        · rw [if_pos hw]; exact ⟨_, rfl⟩
        · rw [if_neg (by rw [hw]; simp), if_pos hw]; exact ⟨_, rfl⟩
      | result w t r =>
        simp only
        rw [if_pos (A.res w t r (by simp [hrd]))]; exact ⟨_, rfl⟩
    | nil =>
      right
      have hu : ¬ s.abs.loop.returned := by
        cases hm : s.mainWaits with
        | true => have := (A.main1 hm).1; exact fun hh => by rw [show s.loop.unfinished = 0 from hh] at this; omega
        | false => have := (A.main2 hm).2 hj; rw [hrd] at this; cases this
      have hstuck : ∀ w : Nat, s.loop.ws[w]? = some .idle ∨ s.loop.ws[w]? = some .release → s.loop.queue = [] := by
        intro w hw
        have h1 := (A.tok w).2 hw
        rw [hrd] at h1
        simp only [steps_nil, List.append_nil] at h1
        have h2 := A.wake (List.ne_nil_of_mem h1)
        rw [hrd] at h2
        simp only [steps_nil, List.length_nil] at h2
        exact List.length_eq_zero_iff.1 (by omega)
      rcases (C07_threads ho h hn hP hp).2 (fun t hm => hnr t ((mem_ret hproj t _).2 hm)) hu with ⟨e, p', hst⟩ | ⟨t, p', hst⟩ | ⟨t, hb, hst⟩
      · left
        cases e with
        | start w t =>
          have h1 := pstep_loop hst
          simp only [step] at h1
          split at h1
          · rename_i hw hq
            rw [show s.abs.loop.queue = [] from hstuck w (.inl hw)] at hq; cases hq
          · cases h1
        | finish w t r =>
          simp only [pstep, ASt.abs, hrd, results_nil, List.nil_append] at hst
          split at hst
          · rename_i x q hi
            split at hst
            · rename_i hxe
              subst hxe
              refine ⟨w, { s with inbox := q, ready := s.ready ++ [.result w t r] }, ?_⟩
              have hw : s.loop.ws[w]? = some (.run t) := by
                by_contra hcon
                simp only [step] at hst
                rw [if_neg (fun hh => hcon hh.1)] at hst
                cases hst
              simp only [astep, hi]
              rw [if_pos ⟨hw, hj⟩]
            · cases hst
          · cases hst
        | abandon w t =>
          have h1 := pstep_loop hst
          simp only [step] at h1
          split at h1
          · rename_i hw hq
            rw [show s.abs.loop.queue = [] from hstuck w (.inl hw)] at hq; cases hq
          · cases h1
        | drain w =>
          have h1 := pstep_loop hst
          simp only [step] at h1
          split at h1
          · rename_i hc
            exact absurd (hstuck w (.inr hc.1)) hc.2.1
          · cases h1
      · right; left
        obtain ⟨q, hq, hc, _⟩ := pstep_begin hst
        refine ⟨t, { s with waiting := q, active := s.active ++ [t] }, ?_⟩
        simp only [astep, show s.waiting = t :: q from hq]
        rw [if_pos ⟨trivial, hc⟩]
      · right; right
        refine ⟨t, (busy_iff_thread hproj t).2 hb, fun r => ?_⟩
        have ht : t ∈ s.active := (busy_iff hwf hp t).1 hb
        simp only [astep]
        exact ⟨_, if_pos ht⟩

/-! ### C16 -/

/-- **C16** for the event loop: as long as no work function returned `False` or raised, when nothing can happen before some work function ends, and the
work function of some target that is ready has not begun, then as many are being executed as there are workers, or as the pool has
threads. -/
theorem C16_asyncio (ho : IsOrder order) (h : construct order lim ts = .ok g) (hx : AExec g n P tr s)
    (hok : ∀ t r, AEv.ret t r ∈ tr → r = .ok)
    (hq : astep g P s .turn = none ∧ (∀ w, astep g P s (.deliver w) = none) ∧ ∀ t, astep g P s (.begin t) = none)
    (t : Nat) (ht : AReady ts tr t) :
    ∃ l : List Nat, l.Nodup ∧ (∀ u, u ∈ l ↔ ABusy tr u) ∧ (l.length = n ∨ l.length = P) := by
  obtain ⟨_, hr, _, hsz, dep, hwf, hdep⟩ := accepted ho h
  obtain ⟨A, ptr, hp, hproj⟩ := refines hwf (roots_ne hwf hr hsz hdep) hx
  have I := inv_of_exec hwf hp.loop
  have T := tinv hwf hp
  obtain ⟨htl, htd, htb⟩ := ht
  have hokp : ∀ t r, PEv.ret t r ∈ ptr → r = .ok := fun t r hm => hok t r ((mem_ret hproj t r).2 hm)
  have herr : s.loop.error = false := by
    cases hh : s.loop.error with
    | false => rfl
    | true =>
      obtain ⟨w, u, hu⟩ := I.errIff.1 hh
      exact absurd (hokp u .fail ((T.ret u .fail).2 (.inl ⟨w, hu⟩))) (by simp)
  have hndead : ∀ w : Nat, s.loop.ws[w]? ≠ some .dead := by
    intro w hw
    obtain ⟨v, u, hu⟩ := I.raised.2 ⟨w, hw⟩
    exact absurd (hokp u .raise ((T.ret u .raise).2 (.inl ⟨v, hu⟩))) (by simp)
  have hj : s.joined = false := by
    cases hh : s.joined with
    | false => rfl
    | true =>
      obtain ⟨h1, _⟩ := C03_asyncio ho h hx hh (by simp [St.verdict, herr])
      have := h1 t htl
      obtain ⟨a, b, hab⟩ := List.append_of_mem this
      exact absurd (by rw [hab]; simp [((C02_asyncio ho h hx a b t).2 .ok hab).1]) htb
  have hrd : s.ready = [] := by
    cases hrd : s.ready with
    | nil => rfl
    | cons x l =>
      have h1 := hq.1
      simp only [astep, hj, hrd, Bool.false_eq_true, if_false] at h1
      cases x with
      | main => cases h1
      | step w =>
        simp only at h1
        rcases (A.tok w).1 (by simp [hrd]) with hw | hw
        · rw [if_pos hw] at h1; cases h1
        · rw [if_neg (by rw [hw]; simp), if_pos hw] at h1; cases h1
      | result w u r =>
        simp only at h1
        rw [if_pos (A.res w u r (by simp [hrd]))] at h1; cases h1
  have hib : s.inbox = [] := by
    cases hib : s.inbox with
    | nil => rfl
    | cons x l =>
      obtain ⟨u, r⟩ := x
      obtain ⟨h1, h2⟩ := (T.mem u).1 (by simp [ASt.abs, hib])
      obtain ⟨w, hw⟩ := (I.startedWhere u h1).resolve_left h2
      have h3 := hq.2.1 w
      simp only [astep, hib] at h3
      rw [if_pos ⟨hw, hj⟩] at h3; cases h3
  have hact : s.active.Nodup := by
    have := T.nodup
    rw [List.append_assoc] at this
    exact (List.nodup_append.1 (List.nodup_append.1 this).2.1).1
  refine ⟨s.active, hact, fun u => by rw [busy_iff_thread hproj, busy_iff hwf hp]; rfl, ?_⟩
  cases hwt : s.waiting with
  | cons u l =>
    right
    have h1 := hq.2.2 u
    simp only [astep, hwt] at h1
    have h2 : ¬ s.active.length < P := fun hh => by rw [if_pos ⟨trivial, hh⟩] at h1; cases h1
    have h3 : s.active.length ≤ P := T.cap
    omega
  | nil =>
    left
    have hns : t ∉ starts (loopEvs ptr) := fun hh => htb ((mem_begin hproj t).2 ((T.beg t).2 ⟨hh, by simp [ASt.abs, hwt]⟩))
    have hc : s.loop.count t = 0 := by
      have h1 := I.cnt t (by rw [hsz]; exact htl)
      rw [show s.abs.loop.count t = s.loop.count t from rfl] at h1
      rw [h1]
      simp only [Int.natCast_eq_zero, List.length_eq_zero_iff, List.filter_eq_nil_iff]
      intro d hd
      rcases (T.ret d .ok).1 ((mem_ret hproj d .ok).1 (htd d ((hdep t d).1 hd))) with hw | hw
      · simp [(I.doneIff d).2 (.inl hw)]
      · simp [ASt.abs, hrd, hib] at hw
    have htq : t ∈ s.loop.queue := (I.ready herr t (by rw [hsz]; exact htl) hc).resolve_right hns
    have hgt : s.getters = [] := by
      by_contra hg
      have h1 := A.wake hg
      rw [hrd, steps_nil, List.length_nil] at h1
      have h2 := List.length_pos_of_mem htq
      omega
    have hrun : ∀ w < n, ∃ u, s.loop.ws[w]? = some (.run u) := by
      intro w hw
      have hlen : s.loop.ws.length = n := I.lenW
      have h1 : s.loop.ws[w]? = some s.loop.ws[w] := List.getElem?_eq_getElem (by omega)
      have h2 : w ∉ s.getters ++ steps s.ready := by simp [hgt, hrd]
      rw [A.tok] at h2
      cases hx' : s.loop.ws[w] with
      | idle => rw [hx'] at h1; exact absurd (.inl h1) h2
      | release => rw [hx'] at h1; exact absurd (.inr h1) h2
      | dead => rw [hx'] at h1; exact absurd h1 (hndead w)
      | run u => rw [hx'] at h1; exact ⟨u, h1⟩
    have hle : n ≤ s.active.length := by
      let f : Nat → Nat := fun w => match s.loop.ws[w]? with
        | some (.run u) => u
        | _ => 0
      have hf : ∀ w < n, s.loop.ws[w]? = some (.run (f w)) := by
        intro w hw
        obtain ⟨u, hu⟩ := hrun w hw
        simp only [f, hu]
      have hnd : ((List.range n).map f).Nodup := by
        rw [List.nodup_map_iff_inj_on List.nodup_range]
        intro a ha b hb hab
        have h1 := hf a (List.mem_range.1 ha)
        rw [hab] at h1
        exact I.runInj a b _ h1 (hf b (List.mem_range.1 hb))
      have := (hnd.subperm (l₂ := s.active) fun u hu => by
        obtain ⟨w, hw, rfl⟩ := List.mem_map.1 hu
        have h1 := I.runs w _ (hf w (List.mem_range.1 hw))
        have := (T.mem (f w)).2 h1
        simpa [ASt.abs, hwt, hrd, hib] using this).length_le
      simpa using this
    have := (C09_asyncio ho h hx tr [] (by simp) s.active hact fun u hu => by
      rw [busy_iff_thread hproj, busy_iff hwf hp]; exact hu).1
    omega
end

/-! ### Witnesses -/

/-- run a list of events -/
def arun (g : Graph) (P : Nat) : ASt → List AEv → Option ASt
  | s, [] => some s
  | s, e :: es => (astep g P s e).bind fun s' => arun g P s' es

theorem aexec_of_run {g : Graph} {n P : Nat} : ∀ (es tr : List AEv) (s s' : ASt), AExec g n P tr s → arun g P s es = some s' → AExec g n P (tr ++ es) s' := by
  intro es
  induction es with
  | nil => intro tr s s' h hr; simp [arun] at hr; subst hr; simpa using h
  | cons e es ih =>
    intro tr s s' h hr
    simp only [arun] at hr
    cases hst : astep g P s e with
    | none => rw [hst] at hr; simp at hr
    | some s1 =>
      rw [hst] at hr
      have := ih (tr ++ [e]) s1 s' (.snoc h hst) hr
      simpa using this

theorem arun_exec {g : Graph} {n P : Nat} (es : List AEv) (q : ASt → Prop) (h : ∃ s, arun g P (ainit g n) es = some s ∧ q s) : ∃ s, AExec g n P es s ∧ q s := by
  obtain ⟨s, h1, h2⟩ := h
  exact ⟨s, by simpa using aexec_of_run es [] _ _ .init h1, h2⟩

/-- the diamond with two workers: worker 1 finds the queue empty and waits; the end of "a" puts "b" and "c" into the queue and wakes it; "c" ends
first -/
def diamondAsyncio : List AEv :=
  [.turn, .turn, .begin 0, .ret 0 .ok, .deliver 0, .turn, .turn, .begin 1, .begin 2, .ret 2 .ok, .deliver 1, .ret 1 .ok, .deliver 0, .turn, .turn,
   .turn, .begin 3, .ret 3 .ok, .deliver 0, .turn, .turn]

/-- the assumptions of the theorems can be met: a complete execution (C01, C02, C03, C06, C07, C09) -/
theorem diamondAsyncio_exec : ∃ s, AExec diamondG 2 2 diamondAsyncio s ∧ s.joined = true ∧ s.loop.verdict = true :=
  arun_exec _ _ ⟨_, rfl, rfl, rfl⟩

/-- "b" and "c" are executed at the same time (C09) -/
example : ∃ s, AExec diamondG 2 2 (diamondAsyncio.take 9) s ∧ ABusy (diamondAsyncio.take 9) 1 ∧ ABusy (diamondAsyncio.take 9) 2 := by
  obtain ⟨s, h, _⟩ := diamondAsyncio_exec
  obtain ⟨s1, h1⟩ := h.prefix (diamondAsyncio.take 9) (diamondAsyncio.drop 9) rfl
  exact ⟨s1, h1, ⟨by decide, fun r h => by simp [diamondAsyncio] at h⟩, ⟨by decide, fun r h => by simp [diamondAsyncio] at h⟩⟩

/-- a failure of "b" while "c" is executed, after which `exec()` returns `False` (C04, C05); and an exception of "a" (C08), after which nothing is
possible any more, although `exec()` has not returned -/
example : (∃ s, AExec diamondG 2 2 [.turn, .turn, .begin 0, .ret 0 .ok, .deliver 0, .turn, .turn, .begin 1, .begin 2, .ret 1 .fail, .deliver 0, .turn,
      .ret 2 .ok, .deliver 1, .turn, .turn, .turn] s ∧ s.joined = true ∧ s.loop.verdict = false) ∧
    ∃ s, AExec diamondG 2 2 [.turn, .turn, .begin 0, .ret 0 .raise, .deliver 0, .turn] s ∧ s.ready = [] ∧ s.inbox = [] ∧ s.waiting = [] ∧
      s.active = [] ∧ s.joined = false :=
  ⟨arun_exec _ _ ⟨_, rfl, rfl, rfl⟩, arun_exec _ _ ⟨_, rfl, rfl, rfl, rfl, rfl, rfl⟩⟩

/-- the assumptions of `C16_asyncio`: one worker, and two targets without dependencies; the first is being executed -/
example : ∃ s, AExec twoG 1 5 [.turn, .begin 0] s ∧
    (astep twoG 5 s .turn = none ∧ (∀ w, astep twoG 5 s (.deliver w) = none) ∧ ∀ t, astep twoG 5 s (.begin t) = none) ∧
    AReady two [.turn, .begin 0] 1 := by
  obtain ⟨s, h1, h2, h3, h4⟩ := arun_exec (g := twoG) (n := 1) (P := 5) [.turn, .begin 0] (fun s => s.ready = [] ∧ s.inbox = [] ∧ s.waiting = [])
    ⟨_, rfl, rfl, rfl, rfl⟩
  refine ⟨s, h1, ⟨by simp [astep, h2], by simp [astep, h3], by simp [astep, h4]⟩, by decide, fun d hd => ?_, by decide⟩
  obtain ⟨t, nm, h5, h6, _⟩ := hd
  have : t = ⟨"b", []⟩ := by simpa [two] using h5.symm
  subst this
  cases h6

end Licant.Solver
