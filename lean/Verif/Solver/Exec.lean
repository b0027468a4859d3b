/-
The invariant of all executions of the worker pool (lemmas for Props.lean).
-/
import Verif.Solver.Model
import Mathlib.Data.List.Perm.Subperm
import Mathlib.Data.List.Range

set_option autoImplicit false

namespace Licant.Solver
open Licant.Py

/-- What the executions need to know about the constructed graph: `dep i` are the
dependencies (target numbers) of target `i`. -/
structure WF (g : Graph) (dep : Nat → List Nat) : Prop where
  nodup : ∀ i < g.size, (dep i).Nodup
  lt : ∀ i < g.size, ∀ j ∈ dep i, j < g.size
  depcount : ∀ i < g.size, g.depcount i = (dep i).length
  inv_nodup : ∀ j, (g.inv j).Nodup
  mem_inv : ∀ i j, j < g.size → (i ∈ g.inv j ↔ i < g.size ∧ j ∈ dep i)
  roots_nodup : g.roots.Nodup
  mem_roots : ∀ i, i ∈ g.roots ↔ i < g.size ∧ dep i = []
  rank : ∃ r : Nat → Nat, ∀ i < g.size, ∀ j ∈ dep i, r j < r i

def WS.busy : WS → Bool
  | .run _ => true
  | .dead => true
  | _ => false

/-- targets whose work was started, in order -/
def starts (tr : List Ev) : List Nat :=
  tr.filterMap fun | .start _ t => some t | _ => none

/-- targets whose work ended, in order -/
def ends (tr : List Ev) : List Nat :=
  tr.filterMap fun | .finish _ t _ => some t | _ => none

theorem mem_starts {tr : List Ev} {t : Nat} : t ∈ starts tr ↔ ∃ w, Ev.start w t ∈ tr := by
  simp only [starts, List.mem_filterMap]
  constructor
  · rintro ⟨e, he, h⟩
    cases e <;> simp at h
    subst h; exact ⟨_, he⟩
  · rintro ⟨w, h⟩; exact ⟨_, h, rfl⟩

theorem mem_ends {tr : List Ev} {t : Nat} : t ∈ ends tr ↔ ∃ w r, Ev.finish w t r ∈ tr := by
  simp only [ends, List.mem_filterMap]
  constructor
  · rintro ⟨e, he, h⟩
    cases e <;> simp at h
    subst h; exact ⟨_, _, he⟩
  · rintro ⟨w, r, h⟩; exact ⟨_, h, rfl⟩

@[simp] theorem starts_append (a b : List Ev) : starts (a ++ b) = starts a ++ starts b := by
  simp [starts]
@[simp] theorem ends_append (a b : List Ev) : ends (a ++ b) = ends a ++ ends b := by
  simp [ends]
@[simp] theorem starts_start (w t) : starts [.start w t] = [t] := rfl
@[simp] theorem starts_finish (w t r) : starts [.finish w t r] = [] := rfl
@[simp] theorem ends_start (w t) : ends [.start w t] = [] := rfl
@[simp] theorem ends_finish (w t r) : ends [.finish w t r] = [t] := rfl

/-- The result of the decrement loop when no counter is exhausted. -/
theorem decreaseAll_eq (ds : List Nat) (hn : ds.Nodup) :
    ∀ s : St, (∀ d ∈ ds, 1 ≤ s.count d) →
    decreaseAll s ds =
      ({ s with count := fun i => if i ∈ ds then s.count i - 1 else s.count i
                queue := s.queue ++ ds.filter (fun i => s.count i = 1)
                unfinished := s.unfinished + (ds.filter (fun i => s.count i = 1)).length }, true) := by
  induction ds with
  | nil => intro s _; simp [decreaseAll]
  | cons d ds ih =>
    intro s h
    have hd : 1 ≤ s.count d := h d (by simp)
    have hdn : d ∉ ds := (List.nodup_cons.1 hn).1
    have hlt : ¬ (s.count d - 1 < 0) := by omega
    unfold decreaseAll
    simp only [hlt, if_false]
    have hcnt : ∀ x ∈ ds, (if x = d then s.count d - 1 else s.count x) = s.count x := by
      intro x hx; rw [if_neg]; rintro rfl; exact hdn hx
    have hfil : ds.filter (fun i => decide ((if i = d then s.count d - 1 else s.count i) = 1))
        = ds.filter (fun i => decide (s.count i = 1)) := by
      apply List.filter_congr
      intro x hx; rw [hcnt x hx]
    by_cases hc : s.count d = 1
    · have hc' : s.count d - 1 = 0 := by omega
      simp only [hc', if_true]
      rw [ih (List.nodup_cons.1 hn).2]
      · simp only [hc'] at hfil
        simp only [hfil, List.filter_cons, hc, decide_true, if_true, List.append_assoc,
          List.singleton_append, List.length_cons, List.mem_cons]
        congr 2
        · omega
        · funext i
          by_cases hi : i = d
          · subst hi; simp [hdn]; omega
          · simp [hi]
      · intro x hx
        have := hcnt x hx; rw [hc'] at this; simp only [this]; exact h x (by simp [hx])
    · have hc' : ¬ (s.count d - 1 = 0) := by omega
      simp only [hc', if_false]
      rw [ih (List.nodup_cons.1 hn).2]
      · simp only [hfil, List.filter_cons, hc, decide_false, Bool.false_eq_true, if_false,
          List.mem_cons]
        congr 2
        funext i
        by_cases hi : i = d
        · subst hi; simp [hdn]
        · simp [hi]
      · intro x hx
        simp only [hcnt x hx]; exact h x (by simp [hx])

/-- The invariant. -/
structure PInv (g : Graph) (dep : Nat → List Nat) (n : Nat) (tr : List Ev) (s : St) : Prop where
  lenW : s.ws.length = n
  lenB : s.onBase.length = n
  cnt : ∀ i < g.size, s.count i = ((dep i).filter (fun j => !s.done j)).length
  unf : s.unfinished = s.queue.length + s.ws.countP WS.busy
  qnodup : s.queue.Nodup
  qmem : ∀ t ∈ s.queue, t < g.size ∧ s.count t = 0 ∧ t ∉ starts tr
  runs : ∀ w t : Nat, s.ws[w]? = some (WS.run t) → t ∈ starts tr ∧ t ∉ ends tr
  runInj : ∀ w w' t : Nat, s.ws[w]? = some (WS.run t) → s.ws[w']? = some (WS.run t) → w = w'
  startedLt : ∀ t ∈ starts tr, t < g.size
  startedWhere : ∀ t ∈ starts tr, t ∈ ends tr ∨ ∃ w : Nat, s.ws[w]? = some (WS.run t)
  doneIff : ∀ t, s.done t = true ↔ (∃ w, .finish w t .ok ∈ tr) ∨ (∃ w, .finish w t .fail ∈ tr)
  endsStarted : ∀ t ∈ ends tr, t ∈ starts tr
  startsNodup : (starts tr).Nodup
  endsNodup : (ends tr).Nodup
  errIff : s.error = true ↔ ∃ w t, Ev.finish w t .fail ∈ tr
  errQueue : s.error = true → s.queue = []
  ready : s.error = false → ∀ i < g.size, s.count i = 0 → i ∈ s.queue ∨ i ∈ starts tr
  depsOk : ∀ t ∈ starts tr, ∀ d ∈ dep t, ∃ w, Ev.finish w d .ok ∈ tr
  base : s.error = false → ∀ (w : Nat) x, s.ws[w]? = some x → s.onBase[w]? = some (!x.busy)
  rel : s.error = false → (∃ w : Nat, s.ws[w]? = some WS.release) → s.unfinished = 0
  raised : (∃ w t, Ev.finish w t .raise ∈ tr) ↔ ∃ w : Nat, s.ws[w]? = some WS.dead
  evs : ∀ e ∈ tr, (∃ w t, e = .start w t) ∨ (∃ w t r, e = .finish w t r)
  evw : ∀ w t, (Ev.start w t ∈ tr ∨ ∃ r, Ev.finish w t r ∈ tr) → w < n

theorem PInv.init {g : Graph} {dep : Nat → List Nat} (h : WF g dep) (n : Nat) :
    PInv g dep n [] (init g n) where
  lenW := by simp [Solver.init]
  lenB := by simp [Solver.init]
  cnt := by intro i hi; simp [Solver.init, h.depcount i hi]
  unf := by simp [Solver.init, List.countP_replicate, WS.busy]
  qnodup := h.roots_nodup
  qmem := by
    intro t ht
    obtain ⟨h1, h2⟩ := (h.mem_roots t).1 ht
    refine ⟨h1, ?_, by simp [starts]⟩
    simp [Solver.init, h.depcount t h1, h2]
  runs := by intro w t ht; simp [Solver.init, List.getElem?_replicate] at ht
  runInj := by intro w w' t ht; simp [Solver.init, List.getElem?_replicate] at ht
  startedLt := by simp [starts]
  startedWhere := by simp [starts]
  doneIff := by simp [Solver.init]
  endsStarted := by simp [ends]
  startsNodup := by simp [starts]
  endsNodup := by simp [ends]
  errIff := by simp [Solver.init]
  errQueue := by simp [Solver.init]
  ready := by
    intro _ i hi h0
    left
    have : (dep i).length = 0 := by
      have := h.depcount i hi
      simp only [Solver.init] at h0
      omega
    exact (h.mem_roots i).2 ⟨hi, List.length_eq_zero_iff.1 this⟩
  depsOk := by simp [starts]
  base := by
    intro _ w x hx
    simp only [Solver.init, List.getElem?_replicate] at hx ⊢
    split at hx
    · simp at hx; subst hx; simp [WS.busy, *]
    · simp at hx
  rel := by rintro _ ⟨w, hw⟩; simp [Solver.init, List.getElem?_replicate] at hw
  raised := by simp [Solver.init, List.getElem?_replicate]
  evs := by simp
  evw := by simp

theorem countP_set_of {p : WS → Bool} {l : List WS} {w : Nat} {x y : WS}
    (h : l[w]? = some x) :
    (l.set w y).countP p + (if p x then 1 else 0) = l.countP p + (if p y then 1 else 0) := by
  induction l generalizing w with
  | nil => simp at h
  | cons a l ih =>
    cases w with
    | zero =>
      simp at h; subst h
      simp only [List.set_cons_zero, List.countP_cons]; omega
    | succ w =>
      simp at h
      have := ih h
      simp only [List.set_cons_succ, List.countP_cons]; omega

theorem getElem?_set_of {α : Type*} {l : List α} {w : Nat} {x : α} (h : l[w]? = some x) (y : α) (v : Nat) :
    (l.set w y)[v]? = if w = v then some y else l[v]? := by
  have hw : w < l.length := by
    rcases Nat.lt_or_ge w l.length with h' | h'
    · exact h'
    · rw [List.getElem?_eq_none h'] at h; simp at h
  rw [List.getElem?_set]
  split
  · subst_vars; simp
  · rfl

theorem busy_pos {l : List WS} {w : Nat} {x : WS} (h : l[w]? = some x) (hb : x.busy = true) :
    0 < l.countP WS.busy := by
  rw [List.countP_pos_iff]
  exact ⟨x, List.mem_of_getElem? h, hb⟩

theorem PInv.start {g : Graph} {dep : Nat → List Nat} {n : Nat} {tr : List Ev}
    {s s' : St} (I : PInv g dep n tr s) {w t : Nat} (h : step g s (.start w t) = some s') :
    PInv g dep n (tr ++ [.start w t]) s' := by
  simp only [step] at h
  split at h
  case h_2 => simp at h
  rename_i t' q hw hq
  split at h
  case isFalse => simp at h
  rename_i hc
  obtain ⟨rfl, herr, hunf⟩ := hc
  simp only [Option.some.injEq] at h
  subst h
  have hqm := I.qmem t' (by simp [hq])
  have hqn : t' ∉ q ∧ q.Nodup := by have := I.qnodup; rw [hq] at this; simpa using this
  have hws : ∀ v : Nat, (s.ws.set w (.run t'))[v]? = if w = v then some (WS.run t') else s.ws[v]? :=
    getElem?_set_of hw _
  have hwn : w < n := by
    rw [← I.lenW]
    rcases Nat.lt_or_ge w s.ws.length with h' | h'
    · exact h'
    · rw [List.getElem?_eq_none h'] at hw; simp at hw
  have hdone : ∀ d ∈ dep t', s.done d = true := by
    have := I.cnt t' hqm.1
    rw [hqm.2.1] at this
    have h0 : ((dep t').filter (fun j => !s.done j)).length = 0 := by omega
    intro d hd
    by_contra hcon
    have : d ∈ (dep t').filter (fun j => !s.done j) := by
      simp [hd]; simpa using hcon
    rw [List.length_eq_zero_iff.1 h0] at this; simp at this
  constructor
  case lenW => simpa using I.lenW
  case lenB => simpa using I.lenB
  case cnt => exact I.cnt
  case unf =>
    have h1 := countP_set_of (p := WS.busy) (y := .run t') hw
    have h2 := I.unf
    rw [hq] at h2
    simp [WS.busy] at h1 h2 ⊢
    omega
  case qnodup => exact hqn.2
  case qmem =>
    intro x hx
    have := I.qmem x (by simp [hq]; exact Or.inr hx)
    refine ⟨this.1, this.2.1, ?_⟩
    simp only [starts_append, starts_start, List.mem_append, List.mem_singleton, not_or]
    exact ⟨this.2.2, by rintro rfl; exact hqn.1 hx⟩
  case runs =>
    intro v x hv
    simp only [hws] at hv
    simp only [starts_append, starts_start, ends_append, ends_start, List.append_nil,
      List.mem_append, List.mem_singleton]
    split at hv
    · simp at hv; subst hv
      refine ⟨Or.inr rfl, fun he => hqm.2.2 (I.endsStarted _ he)⟩
    · have := I.runs v x hv
      exact ⟨Or.inl this.1, this.2⟩
  case runInj =>
    intro v v' x hv hv'
    simp only [hws] at hv hv'
    split at hv <;> split at hv'
    · subst_vars; rfl
    · simp at hv; subst hv
      exact absurd (I.runs _ _ hv').1 hqm.2.2
    · simp at hv'; subst hv'
      exact absurd (I.runs _ _ hv).1 hqm.2.2
    · exact I.runInj _ _ _ hv hv'
  case startedLt =>
    intro x hx
    simp only [starts_append, starts_start, List.mem_append, List.mem_singleton] at hx
    rcases hx with hx | rfl
    · exact I.startedLt x hx
    · exact hqm.1
  case startedWhere =>
    intro x hx
    simp only [starts_append, starts_start, List.mem_append, List.mem_singleton] at hx
    simp only [ends_append, ends_start, List.append_nil, hws]
    rcases hx with hx | rfl
    · rcases I.startedWhere x hx with h | ⟨v, hv⟩
      · exact Or.inl h
      · refine Or.inr ⟨v, ?_⟩
        rw [if_neg]; exact hv
        rintro rfl; rw [hw] at hv; simp at hv
    · exact Or.inr ⟨w, by simp⟩
  case doneIff => intro x; simp [I.doneIff x]
  case endsStarted =>
    intro x hx
    simp only [ends_append, ends_start, List.append_nil] at hx
    simp [I.endsStarted x hx]
  case startsNodup =>
    simp only [starts_append, starts_start]
    rw [List.nodup_append]
    refine ⟨I.startsNodup, by simp, ?_⟩
    rintro a ha b hb rfl
    simp at hb; subst hb; exact hqm.2.2 ha
  case endsNodup => simpa using I.endsNodup
  case errIff => simp [I.errIff]
  case errQueue => intro he; rw [herr] at he; simp at he
  case ready =>
    intro _ i hi h0
    rcases I.ready herr i hi h0 with h | h
    · rw [hq] at h
      rcases List.mem_cons.1 h with rfl | h
      · right; simp
      · exact Or.inl h
    · right; simp [h]
  case depsOk =>
    intro x hx d hd
    simp only [starts_append, starts_start, List.mem_append, List.mem_singleton] at hx
    rcases hx with hx | rfl
    · obtain ⟨v, hv⟩ := I.depsOk x hx d hd; exact ⟨v, by simp [hv]⟩
    · rcases (I.doneIff d).1 (hdone d hd) with ⟨v, hv⟩ | ⟨v, hv⟩
      · exact ⟨v, by simp [hv]⟩
      · have := I.errIff.2 ⟨v, d, hv⟩; rw [herr] at this; simp at this
  case base =>
    intro _ v x hv
    simp only [hws] at hv
    split at hv
    · subst_vars
      simp at hv; subst hv
      rw [List.getElem?_set]
      simp [WS.busy, I.lenB, hwn]
    · have := I.base herr v x hv
      rw [List.getElem?_set, if_neg (by assumption)]; exact this
  case rel =>
    rintro _ ⟨v, hv⟩
    simp only [hws] at hv
    split at hv
    · simp at hv
    · have := I.rel herr ⟨v, hv⟩
      exact absurd this hunf
  case raised =>
    simp only [List.mem_append, List.mem_singleton, reduceCtorEq, or_false, I.raised, hws]
    constructor
    · rintro ⟨v, hv⟩; refine ⟨v, ?_⟩
      rw [if_neg]; exact hv
      rintro rfl; rw [hw] at hv; simp at hv
    · rintro ⟨v, hv⟩; refine ⟨v, ?_⟩
      split at hv
      · simp at hv
      · exact hv
  case evs =>
    intro e he
    rcases List.mem_append.1 he with he | he
    · exact I.evs e he
    · simp at he; exact Or.inl ⟨_, _, he⟩
  case evw =>
    intro v x hv
    simp only [List.mem_append, List.mem_singleton, Ev.start.injEq, reduceCtorEq, or_false] at hv
    rcases hv with (hv | ⟨rfl, _⟩) | hv
    · exact I.evw v x (Or.inl hv)
    · exact hwn
    · exact I.evw v x (Or.inr hv)

theorem filter_done_length {l : List Nat} (hn : l.Nodup) (done : Nat → Bool) (t : Nat)
    (ht : done t = false) :
    (l.filter (fun j => !(if j = t then true else done j))).length + (if t ∈ l then 1 else 0)
      = (l.filter (fun j => !done j)).length := by
  induction l with
  | nil => simp
  | cons a l ih =>
    have hn' := List.nodup_cons.1 hn
    have := ih hn'.2
    by_cases hat : a = t
    · subst hat
      simp only [List.filter_cons, if_true, ht, List.mem_cons, true_or]
      simp [hn'.1] at this ⊢
      exact this
    · have hta : t ≠ a := fun h => hat h.symm
      simp only [List.filter_cons, hat, if_false, List.mem_cons, hta, false_or]
      by_cases hda : done a = true
      · simpa [hda] using this
      · simp only [Bool.not_eq_true] at hda
        simp only [hda, Bool.not_false, if_true, List.length_cons]
        omega

theorem PInv.raise {g : Graph} {dep : Nat → List Nat} {n : Nat} {tr : List Ev}
    {s : St} (I : PInv g dep n tr s) {w t : Nat} (hw : s.ws[w]? = some (WS.run t)) :
    PInv g dep n (tr ++ [.finish w t .raise]) { s with ws := s.ws.set w .dead } := by
  have hws : ∀ v : Nat, (s.ws.set w .dead)[v]? = if w = v then some WS.dead else s.ws[v]? :=
    getElem?_set_of hw _
  have hr := I.runs w t hw
  have hwn : w < n := by
    rw [← I.lenW]
    rcases Nat.lt_or_ge w s.ws.length with h' | h'
    · exact h'
    · rw [List.getElem?_eq_none h'] at hw; simp at hw
  constructor
  case lenW => simpa using I.lenW
  case lenB => exact I.lenB
  case cnt => exact I.cnt
  case unf =>
    have h1 := countP_set_of (p := WS.busy) (y := .dead) hw
    have h2 := I.unf
    simp [WS.busy] at h1 h2 ⊢
    omega
  case qnodup => exact I.qnodup
  case qmem => intro x hx; simpa using I.qmem x hx
  case runs =>
    intro v x hv
    simp only [hws] at hv
    split at hv
    · simp at hv
    · rename_i hne
      have := I.runs v x hv
      simp only [starts_append, starts_finish, List.append_nil, ends_append, ends_finish,
        List.mem_append, List.mem_singleton, not_or]
      refine ⟨this.1, this.2, ?_⟩
      rintro rfl; exact hne (I.runInj _ _ _ hw hv)
  case runInj =>
    intro v v' x hv hv'
    simp only [hws] at hv hv'
    split at hv
    · simp at hv
    · split at hv'
      · simp at hv'
      · exact I.runInj _ _ _ hv hv'
  case startedLt => simpa using I.startedLt
  case startedWhere =>
    intro x hx
    simp only [starts_append, starts_finish, List.append_nil] at hx
    simp only [ends_append, ends_finish, List.mem_append, List.mem_singleton, hws]
    rcases I.startedWhere x hx with h | ⟨v, hv⟩
    · exact Or.inl (Or.inl h)
    · by_cases hvw : w = v
      · subst hvw; rw [hw] at hv; simp at hv; exact Or.inl (Or.inr hv.symm)
      · exact Or.inr ⟨v, by rw [if_neg hvw]; exact hv⟩
  case doneIff => intro x; simp [I.doneIff x]
  case endsStarted =>
    intro x hx
    simp only [ends_append, ends_finish, List.mem_append, List.mem_singleton] at hx
    simp only [starts_append, starts_finish, List.append_nil]
    rcases hx with hx | rfl
    · exact I.endsStarted x hx
    · exact hr.1
  case startsNodup => simpa using I.startsNodup
  case endsNodup =>
    simp only [ends_append, ends_finish]
    rw [List.nodup_append]
    refine ⟨I.endsNodup, by simp, ?_⟩
    rintro a ha b hb rfl
    simp at hb; subst hb; exact hr.2 ha
  case errIff => simp [I.errIff]
  case errQueue => exact I.errQueue
  case ready => intro he i hi h0; simpa using I.ready he i hi h0
  case depsOk =>
    intro x hx d hd
    simp only [starts_append, starts_finish, List.append_nil] at hx
    obtain ⟨v, hv⟩ := I.depsOk x hx d hd; exact ⟨v, by simp [hv]⟩
  case base =>
    intro he v x hv
    simp only [hws] at hv
    split at hv
    · subst_vars
      simp at hv; subst hv
      have := I.base he _ _ hw
      simpa [WS.busy] using this
    · exact I.base he v x hv
  case rel =>
    rintro he ⟨v, hv⟩
    simp only [hws] at hv
    split at hv
    · simp at hv
    · exact I.rel he ⟨v, hv⟩
  case raised =>
    simp only [List.mem_append, List.mem_singleton, hws]
    constructor
    · intro _; exact ⟨w, by simp⟩
    · intro _; exact ⟨w, t, Or.inr rfl⟩
  case evs =>
    intro e he
    rcases List.mem_append.1 he with he | he
    · exact I.evs e he
    · simp at he; exact Or.inr ⟨_, _, _, he⟩
  case evw =>
    intro v x hv
    simp only [List.mem_append, List.mem_singleton, reduceCtorEq, or_false, Ev.finish.injEq] at hv
    rcases hv with hv | ⟨r, hv | ⟨rfl, _⟩⟩
    · exact I.evw v x (Or.inl hv)
    · exact I.evw v x (Or.inr ⟨r, hv⟩)
    · exact hwn

/-- The state reached by a worker after `task_done` of a target that did not raise, before
it decides how to go on: counters decreased, ready targets queued. -/
def afterDone (g : Graph) (s : St) (t : Nat) : St :=
  { s with
    done := fun i => if i = t then true else s.done i
    count := fun i => if i ∈ g.inv t then s.count i - 1 else s.count i
    queue := s.queue ++ (g.inv t).filter (fun i => s.count i = 1)
    unfinished := s.unfinished + ((g.inv t).filter (fun i => s.count i = 1)).length - 1 }

/-- The final state of a `finish w t r` event with `r ≠ raise`. -/
def afterFinish (g : Graph) (s : St) (w t : Nat) (r : Ret) : St :=
  let s1 := afterDone g s t
  if s.error then release s1 w
  else if r = .fail then release { s1 with error := true } w
  else
    let s2 := { s1 with onBase := s1.onBase.set w true }
    if s2.onBase.all id ∧ s2.queue = [] then release s2 w
    else { s2 with ws := s2.ws.set w .idle }

theorem PInv.count_pos {g : Graph} {dep : Nat → List Nat} {n : Nat} {tr : List Ev}
    {s : St} (I : PInv g dep n tr s) (hwf : WF g dep) {w t : Nat}
    (hw : s.ws[w]? = some (WS.run t)) : ∀ d ∈ g.inv t, 1 ≤ s.count d := by
  intro d hd
  have hr := I.runs w t hw
  have htl := I.startedLt t hr.1
  have := (hwf.mem_inv d t htl).1 hd
  rw [I.cnt d this.1]
  have hdone : s.done t = false := by
    by_contra hcon
    simp only [Bool.not_eq_false] at hcon
    rcases (I.doneIff t).1 hcon with ⟨v, hv⟩ | ⟨v, hv⟩
    · exact hr.2 (mem_ends.2 ⟨_, _, hv⟩)
    · exact hr.2 (mem_ends.2 ⟨_, _, hv⟩)
  have : t ∈ (dep d).filter (fun j => !s.done j) := by simp [this.2, hdone]
  have := List.length_pos_of_mem this
  omega

theorem step_finish {g : Graph} {dep : Nat → List Nat} {n : Nat} {tr : List Ev}
    {s : St} (I : PInv g dep n tr s) (hwf : WF g dep) {w t : Nat} {r : Ret} (hr : r ≠ .raise)
    (hw : s.ws[w]? = some (WS.run t)) (hu : s.unfinished ≠ 0) :
    step g s (.finish w t r) = some (afterFinish g s w t r) := by
  have hpos := I.count_pos hwf hw
  have key := decreaseAll_eq (g.inv t) (hwf.inv_nodup t)
    { s with done := fun i => if i = t then true else s.done i } hpos
  have hcond : s.ws[w]? = some (WS.run t) ∧ s.unfinished ≠ 0 := ⟨hw, hu⟩
  cases r with
  | raise => exact absurd rfl hr
  | ok =>
    simp only [step, if_pos hcond, key]
    simp only [afterFinish, afterDone]
    split
    · rfl
    · simp only [reduceCtorEq, if_false]
      split
      · rename_i h; exact (congrArg some (if_pos h)).symm
      · rename_i h; exact (congrArg some (if_neg h)).symm
  | fail =>
    simp only [step, if_pos hcond, key]
    simp only [afterFinish, afterDone]
    split
    · rfl
    · simp only [if_true]

theorem PInv.finish {g : Graph} {dep : Nat → List Nat} {n : Nat} {tr : List Ev}
    {s : St} (I : PInv g dep n tr s) (hwf : WF g dep) {w t : Nat} {r : Ret} (hr : r ≠ .raise)
    (hw : s.ws[w]? = some (WS.run t)) :
    PInv g dep n (tr ++ [.finish w t r]) (afterFinish g s w t r) := by
  have hrun := I.runs w t hw
  have htl := I.startedLt t hrun.1
  have hwn : w < n := by
    rw [← I.lenW]
    rcases Nat.lt_or_ge w s.ws.length with h' | h'
    · exact h'
    · rw [List.getElem?_eq_none h'] at hw; simp at hw
  have hdone : s.done t = false := by
    by_contra hcon
    simp only [Bool.not_eq_false] at hcon
    rcases (I.doneIff t).1 hcon with ⟨v, hv⟩ | ⟨v, hv⟩
    · exact hrun.2 (mem_ends.2 ⟨_, _, hv⟩)
    · exact hrun.2 (mem_ends.2 ⟨_, _, hv⟩)
  have hbusy : 0 < s.ws.countP WS.busy := busy_pos hw rfl
  have hinv := fun i => hwf.mem_inv i t htl
  have hpos := I.count_pos hwf hw
  -- facts about the common part
  have hcnt : ∀ i < g.size, (if i ∈ g.inv t then s.count i - 1 else s.count i)
      = ((dep i).filter (fun j => !(if j = t then true else s.done j))).length := by
    intro i hi
    have h1 := filter_done_length (hwf.nodup i hi) s.done t hdone
    have h2 := I.cnt i hi
    by_cases hm : t ∈ dep i
    · have : i ∈ g.inv t := (hinv i).2 ⟨hi, hm⟩
      simp only [this, if_true]; simp only [hm, if_true] at h1; omega
    · have : i ∉ g.inv t := fun h => hm ((hinv i).1 h).2
      simp only [this, if_false]; simp only [hm, if_false] at h1; omega
  have hnew : ∀ x ∈ (g.inv t).filter (fun i => s.count i = 1),
      x < g.size ∧ s.count x = 1 ∧ x ∈ g.inv t ∧ x ∉ starts tr ∧ x ∉ s.queue := by
    intro x hx
    simp only [List.mem_filter, decide_eq_true_eq] at hx
    refine ⟨((hinv x).1 hx.1).1, hx.2, hx.1, ?_, ?_⟩
    · intro hs
      obtain ⟨v, hv⟩ := I.depsOk x hs t ((hinv x).1 hx.1).2
      exact hrun.2 (mem_ends.2 ⟨_, _, hv⟩)
    · intro hq; have := (I.qmem x hq).2.1; omega
  -- the queue of the common part
  have hq1 : (s.queue ++ (g.inv t).filter (fun i => s.count i = 1)).Nodup := by
    rw [List.nodup_append]
    refine ⟨I.qnodup, (hwf.inv_nodup t).filter _, ?_⟩
    rintro a ha b hb rfl
    exact (hnew a hb).2.2.2.2 ha
  have hq2 : ∀ x ∈ s.queue ++ (g.inv t).filter (fun i => s.count i = 1),
      x < g.size ∧ (if x ∈ g.inv t then s.count x - 1 else s.count x) = 0 ∧ x ∉ starts tr := by
    intro x hx
    rcases List.mem_append.1 hx with hx | hx
    · have h1 := I.qmem x hx
      refine ⟨h1.1, ?_, h1.2.2⟩
      rw [if_neg]; exact h1.2.1
      intro hm; have := hpos x hm; omega
    · have h1 := hnew x hx
      refine ⟨h1.1, ?_, h1.2.2.2.1⟩
      rw [if_pos h1.2.2.1]; omega
  have hready : s.error = false → ∀ i < g.size,
      (if i ∈ g.inv t then s.count i - 1 else s.count i) = 0 →
      i ∈ s.queue ++ (g.inv t).filter (fun i => s.count i = 1) ∨ i ∈ starts tr := by
    intro he i hi h0
    by_cases hm : i ∈ g.inv t
    · simp only [hm, if_true] at h0
      left; apply List.mem_append_right
      simp only [List.mem_filter, hm, true_and, decide_eq_true_eq]; omega
    · simp only [hm, if_false] at h0
      rcases I.ready he i hi h0 with h | h
      · exact Or.inl (List.mem_append_left _ h)
      · exact Or.inr h
  have hws : ∀ y (v : Nat), (s.ws.set w y)[v]? = if w = v then some y else s.ws[v]? :=
    fun y => getElem?_set_of hw y
  have hcountP : ∀ y : WS, y.busy = false →
      (s.ws.set w y).countP WS.busy + 1 = s.ws.countP WS.busy := by
    intro y hy
    have := countP_set_of (p := WS.busy) (y := y) hw
    rw [hy] at this
    simpa [WS.busy] using this
  have hunf := I.unf
  -- a general constructor
  have build : ∀ (s' : St) (y : WS), (y = .idle ∨ y = .release) →
      s'.ws = s.ws.set w y →
      s'.onBase.length = n →
      s'.count = (fun i => if i ∈ g.inv t then s.count i - 1 else s.count i) →
      s'.done = (fun i => if i = t then true else s.done i) →
      s'.unfinished = s'.queue.length + (s.ws.set w y).countP WS.busy →
      (s'.queue = s.queue ++ (g.inv t).filter (fun i => s.count i = 1) ∨ s'.queue = []) →
      (s'.error = true ↔ s.error = true ∨ r = .fail) →
      (s'.error = true → s'.queue = []) →
      (s'.error = false → ∀ i ∈ s.queue ++ (g.inv t).filter (fun i => s.count i = 1),
          i ∈ s'.queue) →
      (s'.error = false → ∀ v : Nat, s'.onBase[v]? = if w = v then some true else s.onBase[v]?) →
      (s'.error = false → (y = .release → s'.unfinished = 0) ∧
          ((∃ v : Nat, s.ws[v]? = some WS.release) → s'.unfinished = 0)) →
      PInv g dep n (tr ++ [.finish w t r]) s' := by
    intro s' y hy hW hB hC hD hU hQ hE hEQ hK hOB hREL
    have hyb : y.busy = false := by rcases hy with rfl | rfl <;> rfl
    constructor
    case lenW => rw [hW]; simpa using I.lenW
    case lenB => exact hB
    case cnt => intro i hi; rw [hC, hD]; exact hcnt i hi
    case unf => rw [hU, hW]
    case qnodup => rcases hQ with h | h <;> rw [h]; exact hq1; simp
    case qmem =>
      intro x hx
      rw [hC]
      simp only [starts_append, starts_finish, List.append_nil]
      rcases hQ with h | h
      · rw [h] at hx; exact hq2 x hx
      · rw [h] at hx; simp at hx
    case runs =>
      intro v x hv
      rw [hW, hws] at hv
      split at hv
      · rcases hy with rfl | rfl <;> simp at hv
      · rename_i hne
        have := I.runs v x hv
        simp only [starts_append, starts_finish, List.append_nil, ends_append, ends_finish,
          List.mem_append, List.mem_singleton, not_or]
        refine ⟨this.1, this.2, ?_⟩
        rintro rfl; exact hne (I.runInj _ _ _ hw hv)
    case runInj =>
      intro v v' x hv hv'
      rw [hW, hws] at hv hv'
      split at hv
      · rcases hy with rfl | rfl <;> simp at hv
      · split at hv'
        · rcases hy with rfl | rfl <;> simp at hv'
        · exact I.runInj _ _ _ hv hv'
    case startedLt => simpa using I.startedLt
    case startedWhere =>
      intro x hx
      simp only [starts_append, starts_finish, List.append_nil] at hx
      simp only [ends_append, ends_finish, List.mem_append, List.mem_singleton, hW, hws]
      rcases I.startedWhere x hx with h | ⟨v, hv⟩
      · exact Or.inl (Or.inl h)
      · by_cases hvw : w = v
        · subst hvw; rw [hw] at hv; simp at hv; exact Or.inl (Or.inr hv.symm)
        · exact Or.inr ⟨v, by rw [if_neg hvw]; exact hv⟩
    case doneIff =>
      intro x
      rw [hD]
      simp only [List.mem_append, List.mem_singleton, Ev.finish.injEq]
      by_cases hx : x = t
      · subst hx
        simp only [if_true, true_iff]
        cases r with
        | ok => left; exact ⟨w, Or.inr (by simp)⟩
        | fail => right; exact ⟨w, Or.inr (by simp)⟩
        | raise => exact absurd rfl hr
      · simp only [hx, if_false, false_and, and_false, or_false]
        exact I.doneIff x
    case endsStarted =>
      intro x hx
      simp only [ends_append, ends_finish, List.mem_append, List.mem_singleton] at hx
      simp only [starts_append, starts_finish, List.append_nil]
      rcases hx with hx | rfl
      · exact I.endsStarted x hx
      · exact hrun.1
    case startsNodup => simpa using I.startsNodup
    case endsNodup =>
      simp only [ends_append, ends_finish]
      rw [List.nodup_append]
      refine ⟨I.endsNodup, by simp, ?_⟩
      rintro a ha b hb rfl
      simp at hb; subst hb; exact hrun.2 ha
    case errIff =>
      rw [hE, I.errIff]
      simp only [List.mem_append, List.mem_singleton, Ev.finish.injEq]
      constructor
      · rintro (⟨v, x, h⟩ | rfl)
        · exact ⟨v, x, Or.inl h⟩
        · exact ⟨w, t, Or.inr ⟨rfl, rfl, rfl⟩⟩
      · rintro ⟨v, x, h | ⟨_, _, h⟩⟩
        · exact Or.inl ⟨v, x, h⟩
        · exact Or.inr h.symm
    case errQueue => exact hEQ
    case ready =>
      intro he i hi h0
      rw [hC] at h0
      have he' : s.error = false := by
        by_contra hcon
        simp only [Bool.not_eq_false] at hcon
        have := hE.2 (Or.inl hcon); rw [he] at this; simp at this
      simp only [starts_append, starts_finish, List.append_nil]
      rcases hready he' i hi h0 with h | h
      · exact Or.inl (hK he i h)
      · exact Or.inr h
    case depsOk =>
      intro x hx d hd
      simp only [starts_append, starts_finish, List.append_nil] at hx
      obtain ⟨v, hv⟩ := I.depsOk x hx d hd; exact ⟨v, by simp [hv]⟩
    case base =>
      intro he v x hv
      have he' : s.error = false := by
        by_contra hcon
        simp only [Bool.not_eq_false] at hcon
        have := hE.2 (Or.inl hcon); rw [he] at this; simp at this
      rw [hW, hws] at hv
      rw [hOB he]
      split at hv
      · subst_vars
        simp at hv; subst hv
        simp [hyb]
      · rw [if_neg (by assumption)]
        exact I.base he' v x hv
    case rel =>
      rintro he ⟨v, hv⟩
      rw [hW, hws] at hv
      split at hv
      · simp at hv; exact (hREL he).1 hv
      · exact (hREL he).2 ⟨v, hv⟩
    case raised =>
      simp only [List.mem_append, List.mem_singleton, hW, hws, Ev.finish.injEq]
      constructor
      · rintro ⟨v, x, h | ⟨_, _, h⟩⟩
        · obtain ⟨u, hu⟩ := I.raised.1 ⟨v, x, h⟩
          refine ⟨u, ?_⟩
          rw [if_neg]; exact hu
          rintro rfl; rw [hw] at hu; simp at hu
        · exact absurd h.symm hr
      · rintro ⟨v, hv⟩
        split at hv
        · rcases hy with rfl | rfl <;> simp at hv
        · obtain ⟨u, x, h⟩ := I.raised.2 ⟨v, hv⟩
          exact ⟨u, x, Or.inl h⟩
    case evs =>
      intro e he
      rcases List.mem_append.1 he with he | he
      · exact I.evs e he
      · simp at he; exact Or.inr ⟨_, _, _, he⟩
    case evw =>
      intro v x hv
      simp only [List.mem_append, List.mem_singleton, reduceCtorEq, or_false, Ev.finish.injEq] at hv
      rcases hv with hv | ⟨r', hv | ⟨rfl, _⟩⟩
      · exact I.evw v x (Or.inl hv)
      · exact I.evw v x (Or.inr ⟨r', hv⟩)
      · exact hwn
  have hrelc : ∀ y : WS, y.busy = false →
      s.unfinished + ((g.inv t).filter (fun i => s.count i = 1)).length - 1 =
        (s.queue ++ (g.inv t).filter (fun i => s.count i = 1)).length
          + (s.ws.set w y).countP WS.busy := by
    intro y hy
    have := hcountP y hy
    simp only [List.length_append]; omega
  have hrunf : s.unfinished ≠ 0 := by omega
  unfold afterFinish
  by_cases herr : s.error = true
  · simp only [herr, if_true]
    refine build _ .release (Or.inr rfl) rfl I.lenB rfl rfl ?_ (Or.inr rfl) ?_ (fun _ => rfl)
      ?_ ?_ ?_
    · simp only [release, afterDone, List.length_nil]
      rw [hrelc .release rfl]; omega
    · simp [release, afterDone, herr]
    · simp [release, afterDone, herr]
    · simp [release, afterDone, herr]
    · simp [release, afterDone, herr]
  · simp only [Bool.not_eq_true] at herr
    simp only [herr, Bool.false_eq_true, if_false]
    by_cases hf : r = .fail
    · simp only [hf, if_true]
      subst hf
      refine build _ .release (Or.inr rfl) rfl I.lenB rfl rfl ?_ (Or.inr rfl) ?_ (fun _ => rfl)
        ?_ ?_ ?_
      · simp only [release, afterDone, List.length_nil]
        rw [hrelc .release rfl]; omega
      · simp [release]
      · simp [release]
      · simp [release]
      · simp [release]
    · simp only [hf, if_false]
      have hnorel : ¬ ∃ v : Nat, s.ws[v]? = some WS.release := fun h => hrunf (I.rel herr h)
      have hob : ∀ v : Nat, (s.onBase.set w true)[v]? = if w = v then some true else s.onBase[v]? :=
        getElem?_set_of (I.base herr w _ hw) true
      by_cases hlast : ((afterDone g s t).onBase.set w true).all id = true ∧
          (afterDone g s t).queue = []
      · rw [if_pos hlast]
        have hall : ∀ (v : Nat) x, s.ws[v]? = some x → v ≠ w → x.busy = false := by
          intro v x hv hvw
          have h1 := I.base herr v x hv
          have h2 := hob v
          rw [if_neg (Ne.symm hvw), h1] at h2
          have h3 := hlast.1
          rw [List.all_eq_true] at h3
          have := h3 _ (List.mem_of_getElem? h2)
          simpa using this
        have hzero : (s.ws.set w .release).countP WS.busy = 0 := by
          rw [List.countP_eq_zero]
          intro x hx
          obtain ⟨v, hv⟩ := List.mem_iff_getElem?.1 hx
          rw [hws] at hv
          split at hv
          · simp at hv; subst hv; simp [WS.busy]
          · simp [hall v x hv (by rintro rfl; contradiction)]
        have hu0 : (afterDone g s t).unfinished - (afterDone g s t).queue.length = 0 := by
          have := hrelc .release rfl
          simp only [afterDone]; omega
        refine build _ .release (Or.inr rfl) rfl (by simpa [release, afterDone] using I.lenB)
          rfl rfl ?_ (Or.inr rfl) ?_ (fun _ => rfl) ?_ ?_ ?_
        · simp only [release, List.length_nil, hzero]; exact hu0
        · simp [release, afterDone, herr, hf]
        · intro _ i hi
          have : i ∈ (afterDone g s t).queue := hi
          rw [hlast.2] at this; simp at this
        · intro _ v; exact hob v
        · intro _; exact ⟨fun _ => hu0, fun h => absurd h hnorel⟩
      · rw [if_neg hlast]
        refine build _ .idle (Or.inl rfl) rfl (by simpa [release, afterDone] using I.lenB)
          rfl rfl ?_ (Or.inl rfl) ?_ ?_ (fun _ i hi => hi) ?_ ?_
        · exact hrelc .idle rfl
        · simp [afterDone, herr, hf]
        · simp [afterDone, herr]
        · intro _ v; exact hob v
        · intro _; exact ⟨by simp, fun h => absurd h hnorel⟩

/-- The invariant holds in every execution. -/
theorem inv_of_exec {g : Graph} {dep : Nat → List Nat} (hwf : WF g dep) {n : Nat}
    {tr : List Ev} {s : St} (h : Exec g n tr s) : PInv g dep n tr s := by
  induction h with
  | init => exact PInv.init hwf n
  | @snoc tr s e s' _ hst I =>
    cases e with
    | start w t => exact I.start hst
    | finish w t r =>
      have hc : s.ws[w]? = some (WS.run t) ∧ s.unfinished ≠ 0 := by
        by_contra hcon
        simp only [step, if_neg hcon] at hst; simp at hst
      by_cases hr : r = .raise
      · subst hr
        simp only [step, if_pos hc, Option.some.injEq] at hst
        subst hst; exact I.raise hc.1
      · rw [step_finish I hwf hr hc.1 hc.2] at hst
        simp only [Option.some.injEq] at hst
        subst hst; exact I.finish hwf hr hc.1
    | abandon w t =>
      simp only [step] at hst
      split at hst
      · rename_i hq
        split at hst
        · rename_i hc
          have := I.errQueue hc.2.1
          rw [hq] at this; simp at this
        · simp at hst
      · simp at hst
    | drain w =>
      simp only [step] at hst
      split at hst
      · rename_i hc
        exfalso
        by_cases he : s.error = true
        · exact hc.2.1 (I.errQueue he)
        · simp only [Bool.not_eq_true] at he
          exact hc.2.2 (I.rel he ⟨w, hc.1⟩)
      · simp at hst

/-- Every prefix of an execution is an execution. -/
theorem Exec.prefix {g : Graph} {n : Nat} {tr : List Ev} {s : St} (h : Exec g n tr s) :
    ∀ pre post, tr = pre ++ post → ∃ s', Exec g n pre s' := by
  induction h with
  | init =>
    intro pre post h
    have : pre = [] := by cases pre <;> simp_all
    subst this; exact ⟨_, .init⟩
  | @snoc tr s e s' hex hst ih =>
    intro pre post h
    rcases List.eq_nil_or_concat post with rfl | ⟨post', e', rfl⟩
    · simp at h; subst h; exact ⟨_, .snoc hex hst⟩
    · rw [List.concat_eq_append, ← List.append_assoc] at h
      exact ih pre post' (List.append_inj_left' h rfl)

end Licant.Solver
