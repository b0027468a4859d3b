/-
Ctrl-C during a build: `KeyboardInterrupt` in the main thread, solver.py:83-94 and 145-147, cli.py:152-155.  C130.
-/
import Verif.Solver.Threads
import Mathlib.Data.List.Basic

set_option autoImplicit false

namespace Licant.Solver
open Relation

/-! ### Model -/

/-- `exec()` runs; it was interrupted and cancels its workers (solver.py:87-92); or it has ended with `KeyboardInterrupt` (93). -/
inductive Phase where
  | running
  | cancelling
  | interrupted
  deriving DecidableEq

structure ISt where
  pool : PSt
  phase : Phase := .running

/-- `ev e`: something that happens without Ctrl-C.  `wait`: the interrupt arrives while the event loop waits for results, so that
`run_until_complete` raises.  `taken w t`: it arrives while worker `w` executes solver.py:118-126, between taking `t` from the
queue and handing its work function to the pool, so that the worker catches it.  `cancel`: the workers have been cancelled.
Not modelled: an interrupt that arrives while a worker continues with the result of a work function, and one that arrives
outside `run_until_complete` (in the constructor, say), where nothing catches it below cli.py:154. -/
inductive IEv where
  | ev (e : PEv)
  | wait
  | taken (w t : Nat)
  | cancel
  deriving DecidableEq

/-- * solver.py:86-93: after the interrupt the event loop only cancels its workers.  To cancel a worker that waits for a work function
  is to cancel this: if the pool has not begun it, it never will; if it has, it goes on in its thread.
* solver.py:145-149: a worker that catches the interrupt sets the flag and goes on with `release_queue`, without `task_done`. -/
def istep (g : Graph) (P : Nat) (s : ISt) : IEv → Option ISt
  | .ev (.loop e) => if s.phase = .running then (pstep g P s.pool (.loop e)).map fun p => { s with pool := p } else none
  | .ev e => (pstep g P s.pool e).map fun p => { s with pool := p }
  | .wait => if s.phase = .running ∧ s.pool.loop.unfinished ≠ 0 then some { s with phase := .cancelling } else none
  | .taken w t =>
    match s.pool.loop.ws[w]?, s.pool.loop.queue with
    | some .idle, t' :: q =>
      if s.phase = .running ∧ t' = t ∧ s.pool.loop.error = false ∧ s.pool.loop.unfinished ≠ 0 then
        some { s with pool := { s.pool with loop := release { s.pool.loop with queue := q, error := true } w } }
      else none
    | _, _ => none
  | .cancel =>
    if s.phase = .cancelling then some { s with phase := .interrupted, pool := { s.pool with waiting := [] } } else none

/-- All executions of `exec()` with `n` workers and a pool of `P` threads, with interrupts. -/
inductive IExec (g : Graph) (n P : Nat) : List IEv → ISt → Prop
  | init : IExec g n P [] { pool := pinit g n }
  | snoc {tr s e s'} : IExec g n P tr s → istep g P s e = some s' → IExec g n P (tr ++ [e]) s'

/-- how `exec()` ends, if it has -/
inductive Ending where
  | returns (verdict : Bool)
  | keyboardInterrupt
  deriving DecidableEq

def ISt.ending (s : ISt) : Option Ending :=
  match s.phase with
  | .interrupted => some .keyboardInterrupt
  | .cancelling => none
  | .running => if s.pool.loop.unfinished = 0 then some (.returns s.pool.loop.verdict) else none

/-- cli.py:151-158: the exit status of a command line whose action is this build.  The result of the build is not looked at
(see C64); `licant.util.error` (util.py:103-105) ends the process with `exit(-1)`. -/
def cliStatus : Ending → Int
  | .returns _ => 0
  | .keyboardInterrupt => -1

/-! ### Executions that are interrupted while waiting -/

/-- an event of the pool -/
def PEv.ofPool : PEv → Prop
  | .loop _ => False
  | _ => True

variable {g : Graph} {n P : Nat} {tr : List IEv} {s : ISt}

/-- the forms of these executions -/
inductive Shape (g : Graph) (n P : Nat) : List IEv → ISt → Prop
  | running {pre : List PEv} {p : PSt} : PExec g n P pre p → Shape g n P (pre.map .ev) ⟨p, .running⟩
  | cancelling {pre mid : List PEv} {p0 p : PSt} : PExec g n P pre p0 → PExec g n P (pre ++ mid) p → (∀ e ∈ mid, e.ofPool) →
      mid.length + 2 * p.waiting.length + p.active.length = 2 * p0.waiting.length + p0.active.length →
      Shape g n P (pre.map .ev ++ .wait :: mid.map .ev) ⟨p, .cancelling⟩
  | interrupted {pre mid post : List PEv} {p0 p q : PSt} : PExec g n P pre p0 → PExec g n P (pre ++ mid) p → (∀ e ∈ mid, e.ofPool) →
      mid.length + 2 * p.waiting.length + p.active.length = 2 * p0.waiting.length + p0.active.length →
      q.waiting = [] → (∀ e ∈ post, ∃ t r, e = PEv.ret t r) → post.length + q.active.length = p.active.length →
      Shape g n P (pre.map .ev ++ .wait :: (mid.map .ev ++ .cancel :: post.map .ev)) ⟨q, .interrupted⟩

theorem shape (h : IExec g n P tr s) (hn : ∀ w t, IEv.taken w t ∉ tr) : Shape g n P tr s := by
  induction h with
  | init => exact .running (pre := []) .init
  | @snoc tr s e s' _ hst ih =>
    have ih := ih fun w t hm => hn w t (List.mem_append_left _ hm)
    have hev : ∀ e' : PEv, e'.ofPool → ∀ p', istep g P s (.ev e') = some p' →
        ∃ p, pstep g P s.pool e' = some p ∧ p' = { s with pool := p } := by
      intro e' he' p' h
      cases e' with
      | loop => exact he'.elim
      | begin t => obtain ⟨p, h1, rfl⟩ := Option.map_eq_some_iff.1 h; exact ⟨p, h1, rfl⟩
      | ret t r => obtain ⟨p, h1, rfl⟩ := Option.map_eq_some_iff.1 h; exact ⟨p, h1, rfl⟩
    have hsz : ∀ (e' : PEv) (p p' : PSt), e'.ofPool → pstep g P p e' = some p' →
        1 + 2 * p'.waiting.length + p'.active.length = 2 * p.waiting.length + p.active.length := by
      intro e' p p' he' h
      cases e' with
      | loop => exact he'.elim
      | begin t =>
        obtain ⟨q, h1, _, rfl⟩ := pstep_begin h
        simp [h1]; omega
      | ret t r =>
        obtain ⟨h1, rfl⟩ := pstep_ret h
        have := List.length_erase_of_mem h1
        have := List.length_pos_of_mem h1
        simp only; omega
    cases ih with
    | @running pre p hx =>
      cases e with
      | ev e =>
        have : ∃ p', pstep g P p e = some p' ∧ s' = ⟨p', .running⟩ := by
          cases e with
          | loop e =>
            simp only [istep, if_true] at hst
            obtain ⟨p', h1, rfl⟩ := Option.map_eq_some_iff.1 hst
            exact ⟨p', h1, rfl⟩
          | begin t => obtain ⟨p', h1, rfl⟩ := Option.map_eq_some_iff.1 hst; exact ⟨p', h1, rfl⟩
          | ret t r => obtain ⟨p', h1, rfl⟩ := Option.map_eq_some_iff.1 hst; exact ⟨p', h1, rfl⟩
        obtain ⟨p', h1, rfl⟩ := this
        have := Shape.running (.snoc hx h1)
        simpa using this
      | wait =>
        simp only [istep] at hst
        split at hst
        · cases hst
          have := Shape.cancelling (mid := []) hx (by simpa using hx) (by simp) (by simp)
          simpa using this
        · cases hst
      | taken w t => exact absurd (by simp) (hn w t)
      | cancel => simp [istep] at hst
    | @cancelling pre mid p0 p h0 hx hm hs =>
      cases e with
      | ev e =>
        by_cases he : e.ofPool
        · obtain ⟨p', h1, rfl⟩ := hev e he _ hst
          have h2 := hsz e _ _ he h1
          have := Shape.cancelling (mid := mid ++ [e]) h0 (by rw [← List.append_assoc]; exact .snoc hx h1)
            (by intro x hx; rcases List.mem_append.1 hx with hx | hx
                · exact hm x hx
                · rw [List.mem_singleton.1 hx]; exact he)
            (by simp only [List.length_append, List.length_singleton]; simp only at h2; omega)
          simpa using this
        · cases e with
          | loop e => simp [istep] at hst
          | begin t => exact absurd trivial he
          | ret t r => exact absurd trivial he
      | wait => simp [istep] at hst
      | taken w t => exact absurd (by simp) (hn w t)
      | cancel =>
        simp only [istep, if_true] at hst
        cases hst
        have := Shape.interrupted (post := []) (q := { p with waiting := [] }) h0 hx hm hs rfl (by simp) (by simp)
        simpa using this
    | @interrupted pre mid post p0 p q h0 hx hm hs hw hr hl =>
      cases e with
      | ev e =>
        by_cases he : e.ofPool
        · obtain ⟨p', h1, rfl⟩ := hev e he _ hst
          cases e with
          | loop => exact he.elim
          | begin t =>
            obtain ⟨q', h2, _⟩ := pstep_begin h1
            rw [hw] at h2; cases h2
          | ret t r =>
            have h2 := hsz (.ret t r) _ _ trivial h1
            obtain ⟨_, rfl⟩ := pstep_ret h1
            have := Shape.interrupted (post := post ++ [.ret t r]) (q := { q with active := q.active.erase t, ended := q.ended ++ [(t, r)] })
              h0 hx hm hs hw
              (by intro x hx; rcases List.mem_append.1 hx with hx | hx
                  · exact hr x hx
                  · exact ⟨t, r, List.mem_singleton.1 hx⟩)
              (by simp only [List.length_append, List.length_singleton]; simp only at h2; omega)
            simpa using this
        · cases e with
          | loop e => simp [istep] at hst
          | begin t => exact absurd trivial he
          | ret t r => exact absurd trivial he
      | wait => simp [istep] at hst
      | taken w t => exact absurd (by simp) (hn w t)
      | cancel => simp [istep] at hst

variable {order : Nat → List Nat → List Nat} {lim : Nat} {ts : List DTarget}

/-- at most `n` work functions are in the pool -/
theorem pool_le (ho : IsOrder order) (h : construct order lim ts = .ok g) {tr : List PEv} {p : PSt} (hx : PExec g n P tr p) :
    p.waiting.length + p.active.length ≤ n := by
  obtain ⟨_, _, _, _, dep, hwf, _⟩ := accepted ho h
  have T := tinv hwf hx
  have hn := T.nodup
  rw [List.nodup_append] at hn
  have := C09_parallelism ho h hx.loop (loopEvs tr) [] (by simp) (p.waiting ++ p.active) hn.1 fun t ht => by
    obtain ⟨hs, he⟩ := (T.mem t).1 (List.mem_append_left _ ht)
    exact ⟨mem_starts.1 hs, fun w r hm => he (mem_ends.2 ⟨w, r, hm⟩)⟩
  simpa using this

/-! ### C130 -/

/-- **C130, partial.** If Ctrl-C arrives while the event loop waits, the build stops.  No worker takes another target.  The only
work functions that can still begin are some of those handed to the pool before, and only before `exec()` has ended; the work functions of
their dependencies have returned.  At most `n` work functions are executed to their end, and then `exec()` has ended with
`KeyboardInterrupt`, so that a command line ends with a status other than 0. -/
theorem C130_partial (ho : IsOrder order) (h : construct order lim ts = .ok g) (hx : IExec g n P tr s)
    (hn : ∀ w t, IEv.taken w t ∉ tr) (pre post : List IEv) (htr : tr = pre ++ .wait :: post) :
    (∀ e ∈ post, e = .cancel ∨ (∃ t, e = .ev (.begin t)) ∨ ∃ t r, e = .ev (.ret t r)) ∧
    (∀ t, IEv.ev (.begin t) ∈ post → (∃ w, IEv.ev (.loop (.start w t)) ∈ pre) ∧ IEv.ev (.begin t) ∉ pre ∧
      ∀ d, DependsOn ts t d → IEv.ev (.ret d .ok) ∈ pre) ∧
    (∀ a b t, post = a ++ .cancel :: b → IEv.ev (.begin t) ∉ b) ∧
    post.length ≤ 2 * n + 1 ∧
    ((∀ e, istep g P s e = none) → s.pool.active = [] ∧ s.ending = some .keyboardInterrupt) ∧
    ∀ e, s.ending = some e → cliStatus e ≠ 0 := by
  obtain ⟨_, _, _, _, dep, hwf, _⟩ := accepted ho h
  have hbegin : ∀ (pre mid : List PEv) (p0 p : PSt), PExec g n P pre p0 → PExec g n P (pre ++ mid) p → (∀ e ∈ mid, e.ofPool) →
      ∀ t, PEv.begin t ∈ mid → (∃ w, PEv.loop (.start w t) ∈ pre) ∧ PEv.begin t ∉ pre ∧
        ∀ d, DependsOn ts t d → PEv.ret d .ok ∈ pre := by
    intro pre mid p0 p h0 hx hm t ht
    have hl : loopEvs (pre ++ mid) = loopEvs pre := by
      rw [loopEvs_append]
      have : loopEvs mid = [] := by
        rw [List.eq_nil_iff_forall_not_mem]
        intro e he
        exact hm _ (mem_loopEvs.1 he)
      rw [this, List.append_nil]
    have hs := (((tinv hwf hx).beg t).1 (List.mem_append_right _ ht)).1
    rw [hl] at hs
    obtain ⟨w, hw⟩ := mem_starts.1 hs
    refine ⟨⟨w, mem_loopEvs.1 hw⟩, ?_, fun d hd => ?_⟩
    · obtain ⟨a, b, rfl⟩ := List.append_of_mem ht
      have := (C02_threads ho h hx (pre ++ a) b t).1 (by simp)
      intro hp
      exact this (by simp [hp])
    · obtain ⟨w', hw'⟩ := dep_lt_of_started ho h h0.loop hw hd
      exact ((tinv hwf h0).ret d .ok).2 (Or.inl ⟨w', hw'⟩)
  have hpool : ∀ e : PEv, e.ofPool → (∃ t, e = .begin t) ∨ ∃ t r, e = .ret t r := by
    intro e he
    cases e with
    | loop => exact he.elim
    | begin t => exact Or.inl ⟨t, rfl⟩
    | ret t r => exact Or.inr ⟨t, r, rfl⟩
  have hS := shape hx hn
  cases hS with
  | @running pre' p hx' =>
    exfalso
    have : IEv.wait ∈ pre'.map IEv.ev := by rw [htr]; simp
    simp at this
  | @cancelling pre' mid p0 p h0 hx' hm hs =>
    rw [List.append_cons_inj_of_notMem (by simp) (by simp)] at htr
    obtain ⟨rfl, _, rfl⟩ := htr
    have hle := pool_le ho h h0
    refine ⟨?_, ?_, ?_, ?_, ?_, ?_⟩
    · intro e he
      obtain ⟨x, hx1, rfl⟩ := List.mem_map.1 he
      rcases hpool x (hm x hx1) with ⟨t, rfl⟩ | ⟨t, r, rfl⟩
      · exact Or.inr (Or.inl ⟨t, rfl⟩)
      · exact Or.inr (Or.inr ⟨t, r, rfl⟩)
    · intro t ht
      obtain ⟨h1, h2, h3⟩ := hbegin pre' mid p0 p h0 hx' hm t (by simpa using ht)
      simpa using ⟨h1, h2, h3⟩
    · intro a b t he
      have : IEv.cancel ∈ mid.map IEv.ev := by rw [he]; simp
      simp at this
    · simp; omega
    · intro hmax
      have := hmax .cancel
      simp [istep] at this
    · intro e he
      simp [ISt.ending] at he
  | @interrupted pre' mid post' p0 p q h0 hx' hm hs hw hr hl =>
    rw [List.append_cons_inj_of_notMem (by simp) (by simp)] at htr
    obtain ⟨rfl, _, rfl⟩ := htr
    have hle := pool_le ho h h0
    refine ⟨?_, ?_, ?_, ?_, ?_, ?_⟩
    · intro e he
      rcases List.mem_append.1 he with he | he
      · obtain ⟨x, hx1, rfl⟩ := List.mem_map.1 he
        rcases hpool x (hm x hx1) with ⟨t, rfl⟩ | ⟨t, r, rfl⟩
        · exact Or.inr (Or.inl ⟨t, rfl⟩)
        · exact Or.inr (Or.inr ⟨t, r, rfl⟩)
      · rcases List.mem_cons.1 he with rfl | he
        · exact Or.inl rfl
        · obtain ⟨x, hx1, rfl⟩ := List.mem_map.1 he
          obtain ⟨t, r, rfl⟩ := hr x hx1
          exact Or.inr (Or.inr ⟨t, r, rfl⟩)
    · intro t ht
      have ht' : PEv.begin t ∈ mid := by
        simp only [List.mem_append, List.mem_cons, reduceCtorEq, false_or] at ht
        rcases ht with ht | ht
        · simpa using ht
        · obtain ⟨x, hx1, hx2⟩ := List.mem_map.1 ht
          cases hx2
          obtain ⟨_, _, h⟩ := hr _ hx1
          cases h
      obtain ⟨h1, h2, h3⟩ := hbegin pre' mid p0 p h0 hx' hm t ht'
      simpa using ⟨h1, h2, h3⟩
    · intro a b t he hb
      rw [List.append_cons_inj_of_notMem (by simp) (by simp)] at he
      obtain ⟨_, _, rfl⟩ := he
      obtain ⟨x, hx1, hx2⟩ := List.mem_map.1 hb
      cases hx2
      obtain ⟨_, _, h⟩ := hr _ hx1
      cases h
    · simp; omega
    · intro hmax
      refine ⟨?_, rfl⟩
      rw [List.eq_nil_iff_forall_not_mem]
      intro t ht
      have := hmax (.ev (.ret t .ok))
      simp only [istep, pstep] at this
      rw [if_pos ht] at this
      cases this
    · intro e he
      simp [ISt.ending] at he
      subst he
      decide

/-- more is unfinished than is queued or worked on -/
def Stuck (s : St) : Prop := s.error = true ∧ (s.queue.length + s.ws.countP WS.busy + 1 : Int) ≤ s.unfinished

theorem decreaseAll_stuck (ds : List Nat) : ∀ s s' b, decreaseAll s ds = (s', b) →
    s'.unfinished - s'.queue.length = s.unfinished - s.queue.length ∧ s'.ws = s.ws ∧ s'.error = s.error := by
  induction ds with
  | nil => intro s s' b h; simp only [decreaseAll, Prod.mk.injEq] at h; obtain ⟨rfl, rfl⟩ := h; simp
  | cons d ds ih =>
    intro s s' b h
    have h := h
    simp only [decreaseAll] at h
    by_cases hc : s.count d - 1 = 0
    · simp only [hc, if_true] at h
      simp only [Int.lt_irrefl, if_false] at h
      obtain ⟨h1, h2, h3⟩ := ih _ _ _ h
      refine ⟨by rw [h1]; simp; omega, h2, h3⟩
    · simp only [hc, if_false] at h
      by_cases hlt : s.count d - 1 < 0
      · simp only [hlt, if_true, Prod.mk.injEq] at h
        obtain ⟨rfl, rfl⟩ := h
        simp
      · simp only [hlt, if_false] at h
        have := ih _ _ _ h
        exact this

theorem countP_set' {a : WS → Bool} {l : List WS} {w : Nat} {x y : WS} (hw : l[w]? = some x) :
    ((l.set w y).countP a : Int) = l.countP a - (if a x then 1 else 0) + (if a y then 1 else 0) := by
  obtain ⟨hlt, hx⟩ := List.getElem?_eq_some_iff.1 hw
  rw [List.countP_set hlt, hx]
  have : a x = true → 0 < l.countP a := fun h => List.countP_pos_iff.2 ⟨x, List.mem_of_getElem? hw, h⟩
  split <;> rename_i h
  · have := this h
    split <;> simp <;> omega
  · split <;> simp

theorem stuck_step {s s' : St} {e : Ev} (hs : Stuck s) (h : step g s e = some s') : Stuck s' := by
  obtain ⟨h1, h2⟩ := hs
  cases e with
  | start w t =>
    simp only [step] at h
    split at h
    · rw [if_neg (by simp [h1])] at h; cases h
    · cases h
  | abandon w t =>
    simp only [step] at h
    split at h
    · rename_i t' q hw hq
      split at h
      · cases h
        refine ⟨h1, ?_⟩
        simp only [release]
        rw [countP_set' hw]
        rw [hq] at h2
        simp [WS.busy] at h2 ⊢
        omega
      · cases h
    · cases h
  | drain w =>
    simp only [step] at h
    split at h
    · rename_i hw
      cases h
      refine ⟨h1, ?_⟩
      simp only [release]
      rw [countP_set' hw.1]
      simp [WS.busy]
      omega
    · cases h
  | finish w t r =>
    simp only [step] at h
    split at h
    · rename_i hw
      have key : ∀ s1 b, decreaseAll { s with done := fun i => if i = t then true else s.done i } (g.inv t) = (s1, b) →
          s1.unfinished - s1.queue.length = s.unfinished - s.queue.length ∧ s1.ws = s.ws ∧ s1.error = s.error :=
        fun s1 b h => by have := decreaseAll_stuck _ _ _ _ h; exact this
      split at h
      · cases h
        refine ⟨h1, ?_⟩
        simp only
        rw [countP_set' hw.1]
        simp [WS.busy]
        omega
      · split at h
        · rename_i s1 hd
          obtain ⟨k1, k2, k3⟩ := key _ _ hd
          cases h
          refine ⟨by simpa [k3] using h1, ?_⟩
          simp only
          rw [k2, countP_set' hw.1]
          simp [WS.busy]
          omega
        · rename_i s1 hd
          obtain ⟨k1, k2, k3⟩ := key _ _ hd
          rw [if_pos (by simpa [k3] using h1)] at h
          cases h
          refine ⟨by simpa [release, k3] using h1, ?_⟩
          simp only [release]
          rw [k2, countP_set' hw.1]
          simp [WS.busy]
          omega
    · cases h

/-- **C130 is violated.** If Ctrl-C arrives while a worker takes a target from the queue, `exec()` does not end: neither by returning
nor with `KeyboardInterrupt`, unless Ctrl-C arrives once more. -/
theorem C130_violated (ho : IsOrder order) (h : construct order lim ts = .ok g) (hx : IExec g n P tr s)
    (w t : Nat) (ht : IEv.taken w t ∈ tr) (hw : IEv.wait ∉ tr) : s.ending = none := by
  obtain ⟨_, _, _, _, dep, hwf, _⟩ := accepted ho h
  have key : ∀ tr s, IExec g n P tr s → IEv.wait ∉ tr → s.phase = .running ∧
      ((∀ w t, IEv.taken w t ∉ tr) ∨ Stuck s.pool.loop) := by
    intro tr s hx
    induction hx with
    | init => exact fun _ => ⟨rfl, Or.inl (by simp)⟩
    | @snoc tr s e s' hx hst ih =>
      intro hwn
      obtain ⟨h1, h2⟩ := ih fun hm => hwn (List.mem_append_left _ hm)
      have hno : (∀ w t, IEv.taken w t ∉ tr) → ∃ pre, tr = pre.map IEv.ev ∧ PExec g n P pre s.pool := by
        intro hn
        have := shape hx hn
        cases this with
        | @running pre p hp => exact ⟨pre, rfl, hp⟩
        | cancelling => cases h1
        | interrupted => cases h1
      cases e with
      | ev e =>
        have : ∃ p', pstep g P s.pool e = some p' ∧ s' = { s with pool := p' } := by
          cases e with
          | loop e =>
            simp only [istep] at hst
            rw [if_pos h1] at hst
            obtain ⟨p', h1, rfl⟩ := Option.map_eq_some_iff.1 hst
            exact ⟨p', h1, rfl⟩
          | begin t => obtain ⟨p', h1, rfl⟩ := Option.map_eq_some_iff.1 hst; exact ⟨p', h1, rfl⟩
          | ret t r => obtain ⟨p', h1, rfl⟩ := Option.map_eq_some_iff.1 hst; exact ⟨p', h1, rfl⟩
        obtain ⟨p', hp, rfl⟩ := this
        refine ⟨h1, ?_⟩
        rcases h2 with h2 | h2
        · left
          intro w t hm
          rcases List.mem_append.1 hm with hm | hm
          · exact h2 w t hm
          · simp at hm
        · right
          cases e with
          | loop e => exact stuck_step h2 (pstep_loop hp)
          | begin t => obtain ⟨_, _, _, rfl⟩ := pstep_begin hp; exact h2
          | ret t r => obtain ⟨_, rfl⟩ := pstep_ret hp; exact h2
      | wait => exact absurd (by simp) hwn
      | cancel => simp [istep, h1] at hst
      | taken w t =>
        simp only [istep] at hst
        split at hst
        · rename_i t' q hw hq
          split at hst
          · rename_i hc
            cases hst
            refine ⟨h1, Or.inr ⟨rfl, ?_⟩⟩
            have hge : (s.pool.loop.queue.length + s.pool.loop.ws.countP WS.busy : Int) ≤ s.pool.loop.unfinished := by
              rcases h2 with h2 | h2
              · obtain ⟨pre, _, hp⟩ := hno h2
                rw [(inv_of_exec hwf hp.loop).unf]
              · have := h2.2
                omega
            simp only [release]
            rw [countP_set' hw]
            rw [hq] at hge
            simp [WS.busy] at hge ⊢
            omega
          · cases hst
        · cases hst
  obtain ⟨h1, h2⟩ := key tr s hx hw
  rcases h2 with h2 | h2
  · exact absurd ht (h2 w t)
  · unfold ISt.ending
    rw [h1]
    simp only
    rw [if_neg]
    have := h2.2
    omega

/-! ### Examples -/

/-- the state after a list of events -/
def irun (g : Graph) (P : Nat) : ISt → List IEv → Option ISt
  | s, [] => some s
  | s, e :: es => (istep g P s e).bind fun s' => irun g P s' es

theorem iexec_of_run : ∀ (es tr : List IEv) (s s' : ISt), IExec g n P tr s → irun g P s es = some s' → IExec g n P (tr ++ es) s' := by
  intro es
  induction es with
  | nil => intro tr s s' h hr; simp only [irun, Option.some.injEq] at hr; subst hr; simpa using h
  | cons e es ih =>
    intro tr s s' h hr
    simp only [irun, Option.bind_eq_some_iff] at hr
    obtain ⟨s1, h1, h2⟩ := hr
    have := ih _ _ _ (.snoc h h1) h2
    simpa using this

/-- The diamond (`3` needs `1` and `2`, which need `0`) with two workers: Ctrl-C when `1` is being made and `2` was handed to the pool. -/
def diamondWait : List IEv :=
  [.ev (.loop (.start 0 0)), .ev (.begin 0), .ev (.ret 0 .ok), .ev (.loop (.finish 0 0 .ok)), .ev (.loop (.start 0 1)),
   .ev (.begin 1), .ev (.loop (.start 1 2)), .wait, .cancel, .ev (.ret 1 .ok)]

/-- the hypotheses of `C130_partial` are met -/
example : ∃ s, IExec diamondG 2 6 diamondWait s ∧ (∀ w t, IEv.taken w t ∉ diamondWait) ∧ IEv.wait ∈ diamondWait ∧
    s.ending = some .keyboardInterrupt ∧ s.pool.active = [] ∧ s.pool.loop.done 3 = false := by
  cases h : irun diamondG 6 { pool := pinit diamondG 2 } diamondWait with
  | none => exact absurd h (by decide +kernel)
  | some s =>
    have h2 : (irun diamondG 6 { pool := pinit diamondG 2 } diamondWait).map (fun s => (s.ending, s.pool.active, s.pool.loop.done 3)) =
        some (some .keyboardInterrupt, [], false) := by decide +kernel
    rw [h] at h2
    simp only [Option.map_some, Option.some.injEq, Prod.mk.injEq] at h2
    refine ⟨s, by simpa using iexec_of_run diamondWait [] _ _ .init h, ?_, by decide, h2⟩
    intro w t hm
    simp [diamondWait] at hm

/-- Every build with at least one worker can get stuck, already with its first target. -/
theorem C130_violation_reachable (ho : IsOrder order) (h : construct order lim ts = .ok g) (hn : 0 < n) :
    ∃ t s, IExec g n P [.taken 0 t] s := by
  obtain ⟨w, t, tr, s, hx, _⟩ := C08_violation_reachable ho h hn
  obtain ⟨_, _, _, _, dep, hwf, _⟩ := accepted ho h
  have hne : g.roots ≠ [] := by
    intro he
    have : ∀ tr s, Exec g n tr s → tr = [] ∧ s = init g n := by
      intro tr s hx
      induction hx with
      | init => exact ⟨rfl, rfl⟩
      | @snoc tr s e s' _ hst ih =>
        obtain ⟨_, rfl⟩ := ih
        exfalso
        cases e with
        | start w t => simp [step, init, he] at hst
        | abandon w t => simp [step, init, he] at hst
        | drain w => simp [step, init, he] at hst
        | finish w t r => simp [step, init, he] at hst
    obtain ⟨rfl, _⟩ := this _ _ hx
    simp_all
  obtain ⟨t0, q, hq⟩ : ∃ t q, g.roots = t :: q := by
    cases hr : g.roots with
    | nil => exact absurd hr hne
    | cons t q => exact ⟨t, q, rfl⟩
  have hw : (init g n).ws[0]? = some .idle := by simp [init, hn]
  have hq' : (init g n).queue = t0 :: q := hq
  refine ⟨t0, _, .snoc (tr := []) .init (s' := ⟨{ pinit g n with loop := release { init g n with queue := q, error := true } 0 }, .running⟩) ?_⟩
  simp only [istep, pinit, hw, hq']
  rw [if_pos ⟨trivial, trivial, rfl, by simp [init, hq]; omega⟩]

end Licant.Solver
