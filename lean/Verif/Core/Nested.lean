/-
Update functions that invoke actions themselves: `core.do(...)` inside a routine (C138).
-/
import Verif.Core.Update
import Verif.Solver.Threads

set_option autoImplicit false

namespace Licant.Core
open Licant.Py Relation Licant.Solver

variable {canon : String → String} {c : Reg}

/-! ### Model -/

/-- The state of a running `recurse_update` (core.py:364-395): the event loop and its threads, the `need_update` attributes of the target
objects, what `update_if_need` (355-362) found in the attribute when the work function of a target began (`none`: not begun), and for
every target what remains of the evaluation that its update function has started: the objects still to be nullified (43-44), and those
still to be evaluated (49-50). -/
structure NSt where
  pool : PSt
  need : Nat → Option Bool
  found : Nat → Option (Option Bool)
  todo : Nat → List Nat × List Nat

/-- `pool e`: an event of the event loop or its threads.  `call t`: the update function of `t` calls `core.do`, that is `invoke` (264-297), which
begins with `update_update_needity` (52-54).  `eval t b`: the next step of this evaluation, in the thread of `t`.  `sub t o`: the
`recurse_update` that follows the evaluation in the thread of `t` begins the work function of `o`.  Simplification: the nested
`recurse_update` works on one target at a time. -/
inductive NEv where
  | pool (e : PEv)
  | call (t : Nat)
  | eval (t : Nat) (b : Bool)
  | sub (t o : Nat)
  deriving DecidableEq

/-- the objects on which `nullify_update_needity` and `evaluate_update_needity` do something (core.py:43-50, 209-213, 322-328) -/
def evaluated (c : Reg) : List Nat := (c.targets.map (·.2)).filter fun o => (c.obj o).upd

/-- The update function of the target with number `t`, which was called, is being executed and is not in the middle of an evaluation. -/
def NSt.inside (s : NSt) (t : Nat) : Prop := t ∈ s.pool.active ∧ s.found t = some (some true) ∧ s.todo t = ([], [])

instance (s : NSt) (t : Nat) : Decidable (s.inside t) := by unfold NSt.inside; infer_instance

/-- One event.  `objs` are the objects of the targets, `calls o` says whether the update function of `o` calls `core.do`.
* core.py:355-362: a work function that finds `None` raises, one that finds `False` returns `True`; an update function can return only
  when its calls of `core.do` have ended (it may raise at any time, also because the evaluation raises).
* core.py:322-325, 336-338: the evaluation of an object sets `need_update`, to the value it has if another evaluation has set it. -/
def nstep (c : Reg) (objs : List Nat) (g : Graph) (P : Nat) (calls : Nat → Bool) (s : NSt) : NEv → Option NSt
  | .pool (.begin t) =>
    match objs[t]? with
    | none => none
    | some o => (pstep g P s.pool (.begin t)).map fun p =>
        { s with pool := p, found := fun i => if i = t then some (s.need o) else s.found i }
  | .pool (.ret t r) =>
    if (s.found t = some none → r = .raise) ∧ (s.found t = some (some false) → r = .ok) ∧ (r = .raise ∨ s.todo t = ([], [])) then
      (pstep g P s.pool (.ret t r)).map fun p => { s with pool := p }
    else none
  | .pool (.loop e) => (pstep g P s.pool (.loop e)).map fun p => { s with pool := p }
  | .call t =>
    match objs[t]? with
    | none => none
    | some o => if s.inside t ∧ calls o = true then
        some { s with todo := fun i => if i = t then (evaluated c, evaluated c) else s.todo i } else none
  | .eval t b =>
    if t ∈ s.pool.active then
      match s.todo t with
      | (o :: l, l') => some { s with
          need := fun i => if i = o then none else s.need i, todo := fun i => if i = t then (l, l') else s.todo i }
      | ([], o :: l') =>
        if s.need o = none ∨ s.need o = some b then
          some { s with
            need := fun i => if i = o then some b else s.need i, todo := fun i => if i = t then ([], l') else s.todo i }
        else none
      | ([], []) => none
    else none
  | .sub t _ =>
    match objs[t]? with
    | none => none
    | some o => if s.inside t ∧ calls o = true then some s else none

/-- the state in which the workers start, `need` being the result of the evaluation -/
def ninit (g : Graph) (n : Nat) (need : Nat → Option Bool) : NSt := ⟨pinit g n, need, fun _ => none, fun _ => ([], [])⟩

/-- All executions of `recurse_update` with `n` workers and `P` threads. -/
inductive NExec (c : Reg) (objs : List Nat) (g : Graph) (n P : Nat) (calls : Nat → Bool) (need : Nat → Option Bool) : List NEv → NSt → Prop
  | init : NExec c objs g n P calls need [] (ninit g n need)
  | snoc {tr s e s'} : NExec c objs g n P calls need tr s → nstep c objs g P calls s e = some s' →
      NExec c objs g n P calls need (tr ++ [e]) s'

/-! ### Specification -/

/-- no update function raised: what raised was `update_if_need`, because it found no answer -/
def NoRaise (c : Reg) (objs : List Nat) (g : Graph) (n P : Nat) (calls : Nat → Bool) (need : Nat → Option Bool) (tr : List NEv) : Prop :=
  ∀ pre post t s, tr = pre ++ .pool (.ret t .raise) :: post → NExec c objs g n P calls need pre s → s.found t ≠ some (some true)

/-- Every target whose update function calls `core.do` comes before or after every other target of the closure. -/
def InLine (canon : String → String) (c : Reg) (root : Nat) (calls : Nat → Bool) : Prop :=
  ∀ r t, Closure canon c root r → Closure canon c root t → calls r = true → r ≠ t →
    TransGen (ObjDep canon c) r t ∨ TransGen (ObjDep canon c) t r

/-! ### Proofs -/

section Proofs
variable {objs : List Nat} {g : Graph} {n P : Nat} {calls : Nat → Bool} {need : Nat → Option Bool} {tr : List NEv} {s : NSt}

/-- the events of the event loop and its threads -/
def poolEvs (tr : List NEv) : List PEv := tr.filterMap fun
  | .pool e => some e
  | _ => none

@[simp] theorem poolEvs_append (a b : List NEv) : poolEvs (a ++ b) = poolEvs a ++ poolEvs b := by simp [poolEvs]
@[simp] theorem poolEvs_nil : poolEvs [] = [] := rfl
@[simp] theorem poolEvs_pool (e : PEv) (l : List NEv) : poolEvs (.pool e :: l) = e :: poolEvs l := rfl
@[simp] theorem poolEvs_call (t : Nat) (l : List NEv) : poolEvs (.call t :: l) = poolEvs l := rfl
@[simp] theorem poolEvs_eval (t : Nat) (b : Bool) (l : List NEv) : poolEvs (.eval t b :: l) = poolEvs l := rfl
@[simp] theorem poolEvs_sub (t o : Nat) (l : List NEv) : poolEvs (.sub t o :: l) = poolEvs l := rfl
theorem mem_poolEvs {e : PEv} {l : List NEv} : e ∈ poolEvs l ↔ NEv.pool e ∈ l := by
  simp only [poolEvs, List.mem_filterMap]
  constructor
  · rintro ⟨x, hx, hxe⟩
    cases x <;> simp at hxe
    subst hxe; exact hx
  · intro h; exact ⟨_, h, rfl⟩

theorem nstep_pool {e : PEv} {s' : NSt} (h : nstep c objs g P calls s (.pool e) = some s') :
    pstep g P s.pool e = some s'.pool ∧ s'.need = s.need ∧ s'.todo = s.todo ∧
    ((∃ t o, e = .begin t ∧ objs[t]? = some o ∧ s'.found = fun i => if i = t then some (s.need o) else s.found i) ∨
      ((∀ t, e ≠ .begin t) ∧ s'.found = s.found)) := by
  cases e with
  | begin t =>
    simp only [nstep] at h
    split at h
    · cases h
    · rename_i o ho
      obtain ⟨p, hp, rfl⟩ := Option.map_eq_some_iff.1 h
      exact ⟨hp, rfl, rfl, Or.inl ⟨t, o, rfl, ho, rfl⟩⟩
  | ret t r =>
    simp only [nstep] at h
    split at h
    · obtain ⟨p, hp, rfl⟩ := Option.map_eq_some_iff.1 h
      exact ⟨hp, rfl, rfl, Or.inr ⟨by simp, rfl⟩⟩
    · cases h
  | loop e =>
    obtain ⟨p, hp, rfl⟩ := Option.map_eq_some_iff.1 h
    exact ⟨hp, rfl, rfl, Or.inr ⟨by simp, rfl⟩⟩

theorem nstep_call {t : Nat} {s' : NSt} (h : nstep c objs g P calls s (.call t) = some s') :
    ∃ o, objs[t]? = some o ∧ s.inside t ∧ calls o = true ∧
      s' = { s with todo := fun i => if i = t then (evaluated c, evaluated c) else s.todo i } := by
  simp only [nstep] at h
  split at h
  · cases h
  · rename_i o ho
    split at h
    · rename_i hc
      cases h
      exact ⟨o, ho, hc.1, hc.2, rfl⟩
    · cases h

theorem nstep_sub {t o' : Nat} {s' : NSt} (h : nstep c objs g P calls s (.sub t o') = some s') :
    ∃ o, objs[t]? = some o ∧ s.inside t ∧ calls o = true ∧ s' = s := by
  simp only [nstep] at h
  split at h
  · cases h
  · rename_i o ho
    split at h
    · rename_i hc
      cases h
      exact ⟨o, ho, hc.1, hc.2, rfl⟩
    · cases h

theorem nstep_eval {t : Nat} {b : Bool} {s' : NSt} (h : nstep c objs g P calls s (.eval t b) = some s') :
    t ∈ s.pool.active ∧ s'.pool = s.pool ∧ s'.found = s.found ∧
    ((∃ o l l', s.todo t = (o :: l, l') ∧ s'.need = (fun i => if i = o then none else s.need i) ∧
        s'.todo = fun i => if i = t then (l, l') else s.todo i) ∨
      ∃ o l', s.todo t = ([], o :: l') ∧ s'.need = (fun i => if i = o then some b else s.need i) ∧
        s'.todo = fun i => if i = t then ([], l') else s.todo i) := by
  simp only [nstep] at h
  split at h
  · rename_i ha
    split at h
    · rename_i o l l' ht
      cases h
      exact ⟨ha, rfl, rfl, Or.inl ⟨o, l, l', ht, rfl, rfl⟩⟩
    · rename_i o l' ht
      split at h
      · cases h
        exact ⟨ha, rfl, rfl, Or.inr ⟨o, l', ht, rfl, rfl⟩⟩
      · cases h
    · cases h
  · cases h

theorem NExec.pool (h : NExec c objs g n P calls need tr s) : PExec g n P (poolEvs tr) s.pool := by
  induction h with
  | init => exact .init
  | @snoc tr s e s' _ hst ih =>
    cases e with
    | pool e => rw [poolEvs_append]; exact .snoc ih (nstep_pool hst).1
    | call t => obtain ⟨_, _, _, _, rfl⟩ := nstep_call hst; simpa using ih
    | eval t b => rw [poolEvs_append, (nstep_eval hst).2.1]; simpa using ih
    | sub t o => obtain ⟨_, _, _, _, rfl⟩ := nstep_sub hst; simpa using ih

theorem NExec.last {e : NEv} (h : NExec c objs g n P calls need (tr ++ [e]) s) :
    ∃ s1, NExec c objs g n P calls need tr s1 ∧ nstep c objs g P calls s1 e = some s := by
  generalize htr : tr ++ [e] = tr' at h
  cases h with
  | init => simp at htr
  | snoc h hst =>
    obtain ⟨rfl, he⟩ := List.append_inj' htr rfl
    cases he
    exact ⟨_, h, hst⟩

theorem NExec.at (h : NExec c objs g n P calls need tr s) {pre post : List NEv} {e : NEv} (htr : tr = pre ++ e :: post) :
    ∃ s1 s2, NExec c objs g n P calls need pre s1 ∧ nstep c objs g P calls s1 e = some s2 := by
  induction post using List.reverseRecOn generalizing tr s with
  | nil => subst htr; obtain ⟨s1, h1, h2⟩ := h.last; exact ⟨s1, s, h1, h2⟩
  | append_singleton post x ih =>
    subst htr
    rw [← List.cons_append, ← List.append_assoc] at h
    obtain ⟨s1, h1, _⟩ := h.last
    exact ih h1 rfl

theorem NExec.unique (h : NExec c objs g n P calls need tr s) {s' : NSt} (h' : NExec c objs g n P calls need tr s') : s = s' := by
  induction h generalizing s' with
  | init =>
    generalize he : ([] : List NEv) = l at h'
    cases h' with
    | init => rfl
    | snoc => simp at he
  | snoc _ hst ih =>
    obtain ⟨s1, h1, h2⟩ := h'.last
    cases ih h1
    rw [hst] at h2
    exact Option.some.inj h2

theorem NoRaise.prefix {tr' : List NEv} (h : NoRaise c objs g n P calls need (tr ++ tr')) : NoRaise c objs g n P calls need tr := by
  intro pre post t s htr
  exact h pre (post ++ tr') t s (by simp [htr])

/-- what is known during the execution -/
structure NInv (c : Reg) (objs : List Nat) (calls : Nat → Bool) (tr : List NEv) (s : NSt) : Prop where
  /-- whoever has no answer will get one -/
  pending : ∀ o, Registered c o → (c.obj o).upd = true → s.need o = none → ∃ r, o ∈ (s.todo r).2
  both : ∀ r o, o ∈ (s.todo r).1 → o ∈ (s.todo r).2
  running : ∀ r, s.todo r ≠ ([], []) → r ∈ s.pool.active ∧ ∃ o, objs[r]? = some o ∧ calls o = true
  begun : ∀ t ∈ s.pool.active, s.found t ≠ none
  answered : ∀ t, s.found t ≠ some none
  noRaise : ∀ t, NEv.pool (.ret t .raise) ∉ tr

theorem mem_evaluated {o : Nat} (h : Registered c o) (hu : (c.obj o).upd = true) : o ∈ evaluated c := by
  obtain ⟨nm, hn⟩ := h
  exact List.mem_filter.2 ⟨List.mem_map.2 ⟨_, Dict.mem_of_get hn, rfl⟩, hu⟩

theorem ninv {order : Nat → List Nat → List Nat} {lim : Nat} {ds : List DTarget} (ho : IsOrder order)
    (hg : construct order lim ds = .ok g)
    (hobj : ∀ (t o : Nat), objs[t]? = some o → Registered c o ∧ (c.obj o).upd = true)
    (hneed : ∀ o, Registered c o → (c.obj o).upd = true → need o ≠ none)
    (hseq : ∀ (pre post : List PEv) (p : PSt) r t o, PExec g n P (pre ++ .begin t :: post) p → objs[r]? = some o → calls o = true →
      ¬ Busy pre r)
    (hx : NExec c objs g n P calls need tr s) (hr : NoRaise c objs g n P calls need tr) : NInv c objs calls tr s := by
  obtain ⟨_, _, _, _, dep, hwf, _⟩ := accepted ho hg
  induction hx with
  | init =>
    refine ⟨fun o h1 h2 h3 => absurd h3 (hneed o h1 h2), by simp [ninit], by simp [ninit], by simp [ninit, pinit], by simp [ninit], by simp⟩
  | @snoc tr s e s' hx hst ih =>
    have I := ih hr.prefix
    have hx' := NExec.snoc hx hst
    cases e with
    | pool e =>
      obtain ⟨hp, hn, ht, hf⟩ := nstep_pool hst
      cases e with
      | begin t =>
        rcases hf with ⟨t', o, he, hto, hf⟩ | ⟨h, _⟩
        · cases he
          obtain ⟨q, hq, hlt, hpe⟩ := pstep_begin hp
          have hon : s.need o ≠ none := by
            intro h0
            obtain ⟨r, hr0⟩ := I.pending o (hobj t o hto).1 (hobj t o hto).2 h0
            obtain ⟨hra, o', ho', hco⟩ := I.running r (by intro h; rw [h] at hr0; cases hr0)
            have hpx := hx'.pool
            rw [poolEvs_append] at hpx
            exact hseq _ _ _ r t o' hpx ho' hco ((busy_iff hwf hx.pool r).2 hra)
          refine ⟨?_, ?_, ?_, ?_, ?_, ?_⟩
          · rw [hn, ht]; exact I.pending
          · rw [ht]; exact I.both
          · intro r hr0
            rw [ht] at hr0
            rw [hpe]
            exact ⟨List.mem_append_left _ (I.running r hr0).1, (I.running r hr0).2⟩
          · intro x hx
            rw [hf]; dsimp only
            split
            · simp
            · rename_i hne
              rw [hpe] at hx
              simp only [List.mem_append, List.mem_singleton] at hx
              exact I.begun x (hx.resolve_right hne)
          · intro x
            rw [hf]; dsimp only
            split
            · simpa using hon
            · exact I.answered x
          · intro x hm
            simp only [List.mem_append, List.mem_singleton, NEv.pool.injEq, reduceCtorEq, or_false] at hm
            exact I.noRaise x hm
        · exact absurd rfl (h t)
      | ret t r =>
        rcases hf with ⟨t', o, he, _⟩ | ⟨_, hf⟩
        · cases he
        obtain ⟨hta, hpe⟩ := pstep_ret hp
        simp only [nstep] at hst
        split at hst
        · rename_i hc
          obtain ⟨hc1, hc2, hc3⟩ := hc
          have hfound : s.found t = some (some true) ∨ s.found t = some (some false) := by
            cases hft : s.found t with
            | none => exact absurd hft (I.begun t hta)
            | some x =>
              cases x with
              | none => exact absurd hft (I.answered t)
              | some b => cases b <;> simp
          have hne : r ≠ .raise := by
            rintro rfl
            have := hr tr [] t s rfl hx
            rcases hfound with h | h
            · exact this h
            · have := hc2 h; cases this
          have htodo := hc3.resolve_left hne
          refine ⟨?_, ?_, ?_, ?_, ?_, ?_⟩
          · rw [hn, ht]; exact I.pending
          · rw [ht]; exact I.both
          · intro x hx0
            rw [ht] at hx0
            have hxt : x ≠ t := by rintro rfl; exact hx0 htodo
            rw [hpe]
            exact ⟨(List.mem_erase_of_ne hxt).2 (I.running x hx0).1, (I.running x hx0).2⟩
          · intro x hx0
            rw [hf]
            rw [hpe] at hx0
            exact I.begun x (List.mem_of_mem_erase hx0)
          · rw [hf]; exact I.answered
          · intro x hm
            simp only [List.mem_append, List.mem_singleton, NEv.pool.injEq, PEv.ret.injEq] at hm
            rcases hm with hm | ⟨_, hm⟩
            · exact I.noRaise x hm
            · exact hne hm.symm
        · cases hst
      | loop e =>
        rcases hf with ⟨t', o, he, _⟩ | ⟨_, hf⟩
        · cases he
        have hact : s'.pool.active = s.pool.active := by
          cases e with
          | start w t => obtain ⟨_, _, h⟩ := pstep_start hp; rw [h]
          | finish w t r => obtain ⟨_, _, _, _, h⟩ := pstep_finish hp; rw [h]
          | abandon w t => obtain ⟨_, _, h⟩ := Option.map_eq_some_iff.1 hp; rw [← h]
          | drain w => obtain ⟨_, _, h⟩ := Option.map_eq_some_iff.1 hp; rw [← h]
        refine ⟨?_, ?_, ?_, ?_, ?_, ?_⟩
        · rw [hn, ht]; exact I.pending
        · rw [ht]; exact I.both
        · rw [ht, hact]; exact I.running
        · rw [hf, hact]; exact I.begun
        · rw [hf]; exact I.answered
        · intro x hm
          simp only [List.mem_append, List.mem_singleton, NEv.pool.injEq, reduceCtorEq, or_false] at hm
          exact I.noRaise x hm
    | call t =>
      obtain ⟨o, hto, hin, hco, rfl⟩ := nstep_call hst
      refine ⟨?_, ?_, ?_, I.begun, I.answered, ?_⟩
      · intro x h1 h2 h3
        exact ⟨t, by simpa using mem_evaluated h1 h2⟩
      · intro r x
        dsimp only
        split
        · exact id
        · exact I.both r x
      · intro r
        dsimp only
        split
        · rename_i e; intro _; rw [e]; exact ⟨hin.1, o, hto, hco⟩
        · exact I.running r
      · intro x hm
        simp only [List.mem_append, List.mem_singleton, reduceCtorEq, or_false] at hm
        exact I.noRaise x hm
    | eval t b =>
      obtain ⟨hta, hpe, hfe, hcase⟩ := nstep_eval hst
      have hnr : ∀ x, NEv.pool (.ret x .raise) ∉ tr ++ [NEv.eval t b] := by
        intro x hm
        simp only [List.mem_append, List.mem_singleton, reduceCtorEq, or_false] at hm
        exact I.noRaise x hm
      have hbeg : ∀ x ∈ s'.pool.active, s'.found x ≠ none := by rw [hpe, hfe]; exact I.begun
      have hans : ∀ x, s'.found x ≠ some none := by rw [hfe]; exact I.answered
      rcases hcase with ⟨o, l, l', htt, hne, hte⟩ | ⟨o, l', htt, hne, hte⟩
      · have hrt := I.running t (by rw [htt]; simp)
        refine ⟨?_, ?_, ?_, hbeg, hans, hnr⟩
        · intro x h1 h2 h3
          have : ∃ r, x ∈ (s.todo r).2 := by
            by_cases hxo : x = o
            · subst hxo
              exact ⟨t, I.both t x (by rw [htt]; simp)⟩
            · rw [hne] at h3
              simp only [if_neg hxo] at h3
              exact I.pending x h1 h2 h3
          obtain ⟨r, hr0⟩ := this
          refine ⟨r, ?_⟩
          rw [hte]; dsimp only
          split
          · rename_i e; rw [e, htt] at hr0; exact hr0
          · exact hr0
        · intro r x
          rw [hte]; dsimp only
          split
          · intro hx0
            have := I.both t x (by rw [htt]; simp [hx0])
            rw [htt] at this; exact this
          · exact I.both r x
        · intro r
          rw [hte, hpe]; dsimp only
          split
          · rename_i e; intro _; rw [e]; exact hrt
          · exact I.running r
      · have hrt := I.running t (by rw [htt]; simp)
        refine ⟨?_, ?_, ?_, hbeg, hans, hnr⟩
        · intro x h1 h2 h3
          rw [hne] at h3
          by_cases hxo : x = o
          · simp [hxo] at h3
          · simp only [if_neg hxo] at h3
            obtain ⟨r, hr0⟩ := I.pending x h1 h2 h3
            refine ⟨r, ?_⟩
            rw [hte]; dsimp only
            split
            · rename_i e; rw [e, htt] at hr0
              exact (List.mem_cons.1 hr0).resolve_left hxo
            · exact hr0
        · intro r x
          rw [hte]; dsimp only
          split
          · intro hx0; cases hx0
          · exact I.both r x
        · intro r
          rw [hte, hpe]; dsimp only
          split
          · rename_i e; intro _; rw [e]; exact hrt
          · exact I.running r
    | sub t o =>
      obtain ⟨_, _, _, _, rfl⟩ := nstep_sub hst
      refine ⟨I.pending, I.both, I.running, I.begun, I.answered, ?_⟩
      intro x hm
      simp only [List.mem_append, List.mem_singleton, reduceCtorEq, or_false] at hm
      exact I.noRaise x hm

/-- what a target depends on, directly or not, has ended before it begins -/
theorem ended_before {order : Nat → List Nat → List Nat} {lim : Nat} {ds : List DTarget} (ho : IsOrder order)
    (hg : construct order lim ds = .ok g) {t r : Nat} (hd : TransGen (DependsOn ds) t r) :
    ∀ {pre post : List PEv} {p : PSt}, PExec g n P (pre ++ .begin t :: post) p → PEv.ret r .ok ∈ pre := by
  induction hd using TransGen.head_induction_on with
  | single h => intro pre post p hx; exact C01_threads ho hg hx pre post _ _ rfl h
  | head h _ ih =>
    intro pre post p hx
    have h1 := C01_threads ho hg hx pre post _ _ rfl h
    obtain ⟨a, b, hab⟩ := List.append_of_mem h1
    subst hab
    obtain ⟨p1, hp1⟩ := hx.prefix _ _ rfl
    have h2 := ((C02_threads ho hg hp1 a b _).2 _ rfl).1
    obtain ⟨a1, a2, rfl⟩ := List.append_of_mem h2
    have := ih (pre := a1) (post := a2 ++ .ret _ .ok :: b) (p := p1) (by simpa using hp1)
    simp [this]

/-- **C138**, what holds: with one worker, or if every target whose update function calls `core.do` comes before or after every other
target of the closure, every work function finds an answer when it begins, also those of the nested builds.  So if no update function
raises, nothing raises, and an execution that cannot be continued has returned.  Missing: other targets and more workers (`C138_violated`). -/
theorem C138_partial (ops : List Op) (hre : NoReRegistration ops) {setOrder : List Nat → List Nat} {order : Nat → List Nat → List Nat}
    (hso : ∀ l, (setOrder l).Perm l) (ho : IsOrder order) {root lim : Nat} {rt : Option (Option Int)} {threads : Option Int}
    {ds : List DTarget} (hc : c = runOps canon Reg.empty ops) (hroot : Registered c root)
    (hrec : recurseUpdate canon c setOrder order lim [] rt root threads = .ok (objs, ds, g, n))
    (hupd : ∀ o, Closure canon c root o → (c.obj o).upd = true)
    (hneed : ∀ o, Registered c o → (c.obj o).upd = true → need o ≠ none)
    (hseq : n = 1 ∨ InLine canon c root calls) (hP : 0 < P)
    (hx : NExec c objs g n P calls need tr s) (hr : NoRaise c objs g n P calls need tr) :
    (∀ pre post t o s1, tr = pre ++ .pool (.begin t) :: post → objs[t]? = some o → NExec c objs g n P calls need pre s1 → s1.need o ≠ none) ∧
    (∀ pre post t o s1, tr = pre ++ .sub t o :: post → Registered c o → (c.obj o).upd = true → NExec c objs g n P calls need pre s1 →
      s1.need o ≠ none) ∧
    (∀ t, NEv.pool (.ret t .raise) ∉ tr) ∧
    (0 < n → (∀ e, nstep c objs g P calls s e = none) → s.pool.loop.returned) := by
  have hcons : Consistent c := hc ▸ consistent_runOps ops hre
  obtain ⟨ca, hprep, hg, k, hk, hnk⟩ := recurseUpdate_ok hrec
  have PR := prepare_ok hso (resolves_self hcons hroot) (by simp) hprep
  obtain ⟨_, _, _, hsz, dep, hwf, _⟩ := accepted ho hg
  have hobj : ∀ (t o : Nat), objs[t]? = some o → Registered c o ∧ (c.obj o).upd = true := fun t o h =>
    ⟨PR.registered hroot (List.mem_of_getElem? h), hupd o ((PR.mem o).1 (List.mem_of_getElem? h))⟩
  have hs : ∀ (pre post : List PEv) (p : PSt) r t o, PExec g n P (pre ++ .begin t :: post) p → objs[r]? = some o → calls o = true →
      ¬ Busy pre r := by
    intro pre post p r t o hpx hro hco hb
    have hrt : r ≠ t := by
      rintro rfl
      exact (C02_threads ho hg hpx pre post r).1 rfl (List.mem_append_left _ hb.1)
    have htn : Busy (pre ++ [.begin t]) t := by
      refine ⟨by simp, fun r' hm => ?_⟩
      have hm' : PEv.ret t r' ∈ pre := by simpa using hm
      obtain ⟨a, b, rfl⟩ := List.append_of_mem hm'
      have := ((C02_threads ho hg hpx a (b ++ .begin t :: post) t).2 r' (by simp)).1
      exact (C02_threads ho hg hpx _ post t).1 rfl (by simp [this])
    rcases hseq with h1 | hl
    · subst h1
      have := (C09_threads ho hg hpx (pre ++ [.begin t]) post (by simp) [r, t] (by simp [hrt]) (by
        intro x hx0
        rcases List.mem_cons.1 hx0 with rfl | hx0
        · exact ⟨by simp [hb.1], fun r' hm => hb.2 r' (by simpa using hm)⟩
        · rw [List.mem_singleton] at hx0; subst hx0; exact htn)).1
      simp at this
    · have htl : t < objs.length := by
        rw [← PR.len]
        obtain ⟨p1, p2, h1, hst, _⟩ := hpx.at pre _ post rfl
        obtain ⟨q, hq, _, _⟩ := pstep_begin hst
        obtain ⟨hs0, _⟩ := ((tinv hwf h1).mem t).1 (by simp [hq])
        have := (inv_of_exec hwf h1.loop).startedLt t hs0
        omega
      have hto := List.getElem?_eq_getElem htl
      have hne : o ≠ objs[t] := by
        rintro rfl
        have hrl := (List.getElem?_eq_some_iff.1 hro).1
        have := (List.getElem?_eq_some_iff.1 hro).2
        exact hrt ((PR.nodup.getElem_inj_iff).1 this)
      rcases hl o objs[t] ((PR.mem o).1 (List.mem_of_getElem? hro)) ((PR.mem _).1 (List.getElem_mem htl)) hco hne with h | h
      · -- `r` depends on `t`, which has not ended
        obtain ⟨j, hj, hd⟩ := (PR.trans hcons hroot hro).2 _ h
        have hjt : j = t := by
          have h1 := (List.getElem?_eq_some_iff.1 hj).1
          exact (PR.nodup.getElem_inj_iff).1 ((List.getElem?_eq_some_iff.1 hj).2)
        subst hjt
        obtain ⟨a, b, hab⟩ := List.append_of_mem hb.1
        subst hab
        have := ended_before ho hg hd (pre := a) (post := b ++ .begin j :: post) (p := p) (by simpa using hpx)
        exact htn.2 .ok (by simp [this])
      · obtain ⟨j, hj, hd⟩ := (PR.trans hcons hroot hto).2 _ h
        have hjr : j = r := by
          have h1 := (List.getElem?_eq_some_iff.1 hj).1
          have h2 := (List.getElem?_eq_some_iff.1 hro)
          obtain ⟨h3, h4⟩ := h2
          exact (PR.nodup.getElem_inj_iff).1 ((List.getElem?_eq_some_iff.1 hj).2.trans h4.symm)
        subst hjr
        exact hb.2 .ok (ended_before ho hg hd hpx)
  have inv := fun {tr s} (hx : NExec c objs g n P calls need tr s) hr => ninv ho hg hobj hneed hs hx hr
  refine ⟨?_, ?_, (inv hx hr).noRaise, ?_⟩
  · intro pre post t o s1 htr hto hx1 h0
    have hr1 : NoRaise c objs g n P calls need pre := by subst htr; exact hr.prefix
    have I := inv hx1 hr1
    obtain ⟨r, hr0⟩ := I.pending o (hobj t o hto).1 (hobj t o hto).2 h0
    obtain ⟨hra, o', ho', hco⟩ := I.running r (by intro h; rw [h] at hr0; cases hr0)
    have hpx := hx.pool
    rw [htr, poolEvs_append] at hpx
    exact hs _ _ _ r t o' hpx ho' hco ((busy_iff hwf hx1.pool r).2 hra)
  · intro pre post t o s1 htr hreg hu hx1 h0
    have hr1 : NoRaise c objs g n P calls need pre := by subst htr; exact hr.prefix
    have I := inv hx1 hr1
    obtain ⟨r, hr0⟩ := I.pending o hreg hu h0
    have hne0 : s1.todo r ≠ ([], []) := by intro h; rw [h] at hr0; cases hr0
    obtain ⟨hra, or, hor, hcr⟩ := I.running r hne0
    obtain ⟨s1', s2, hx1', hst⟩ := hx.at htr
    cases hx1.unique hx1'
    obtain ⟨ot, hot, hin, hct, _⟩ := nstep_sub hst
    have hrt : r ≠ t := by rintro rfl; exact hne0 hin.2.2
    have hbr := (busy_iff hwf hx1.pool r).2 hra
    have hbt := (busy_iff hwf hx1.pool t).2 hin.1
    have hpx := hx1.pool
    obtain ⟨a, b, hab⟩ := List.append_of_mem hbt.1
    have hbr1 := hbr.1
    rw [hab] at hbr1
    rcases List.mem_append.1 hbr1 with h | h
    · rw [hab] at hpx
      exact hs a b _ r t or hpx hor hcr ⟨h, fun x hx0 => hbr.2 x (by rw [hab]; simp [hx0])⟩
    · rcases List.mem_cons.1 h with h | h
      · cases h; exact hrt rfl
      · obtain ⟨b1, b2, rfl⟩ := List.append_of_mem h
        rw [hab] at hpx
        exact hs (a ++ .begin t :: b1) b2 _ t r ot (by simpa using hpx) hot hct
          ⟨by simp, fun x hx0 => hbt.2 x (by rw [hab]; simp at hx0 ⊢; rcases hx0 with h | h <;> simp [h])⟩
  · intro hn0 hmax
    have I := inv hx hr
    by_contra hret
    have hnr : ∀ t, PEv.ret t .raise ∉ poolEvs tr := fun t hm => I.noRaise t (mem_poolEvs.1 hm)
    rcases (C07_threads ho hg hn0 hP hx.pool).2 hnr hret with ⟨e, p', h⟩ | ⟨t, p', h⟩ | ⟨t, hb, h⟩
    · have := hmax (.pool (.loop e))
      simp [nstep, h] at this
    · have htl : t < objs.length := by
        rw [← PR.len]
        obtain ⟨q, hq, _, _⟩ := pstep_begin h
        obtain ⟨hs0, _⟩ := ((tinv hwf hx.pool).mem t).1 (by simp [hq])
        have := (inv_of_exec hwf hx.pool.loop).startedLt t hs0
        omega
      have := hmax (.pool (.begin t))
      simp [nstep, h, List.getElem?_eq_getElem htl] at this
    · have hta := (busy_iff hwf hx.pool t).1 hb
      by_cases htd : s.todo t = ([], [])
      · obtain ⟨p', hp'⟩ := h .ok
        have := hmax (.pool (.ret t .ok))
        simp only [nstep, hp', htd] at this
        rw [if_pos ⟨fun h => absurd h (I.answered t), fun _ => trivial, Or.inr trivial⟩] at this
        cases this
      · rcases hh : s.todo t with ⟨l, l'⟩
        cases l with
        | cons o l => have := hmax (.eval t true); simp [nstep, hta, hh] at this
        | nil =>
          cases l' with
          | nil => exact htd hh
          | cons o l' =>
            have := hmax (.eval t ((s.need o).getD true))
            simp only [nstep, hta, hh, if_true] at this
            cases hno : s.need o <;> simp [hno] at this

/-! ### violated -/

theorem construct_roots {order : Nat → List Nat → List Nat} {lim : Nat} {ds : List DTarget} (h : construct order lim ds = .ok g) :
    g.roots = nonDependable ds := by
  unfold construct at h
  simp only [bind, Except.bind] at h
  repeat' split at h
  all_goals cases h
  rfl

theorem roots_two {oi oj : Nat} {l : List Nat} {setOrder : List Nat → List Nat} {lim root : Nat} {cache cache' : Cache} {ds : List DTarget}
    (h : prepare canon c setOrder lim cache root = .ok (oi :: oj :: l, ds, cache')) (hi : (c.obj oi).deps = []) (hj : (c.obj oj).deps = []) :
    ∃ rest, nonDependable ds = 0 :: 1 :: rest := by
  unfold prepare at h
  simp only [bind, Except.bind] at h
  repeat' split at h
  · cases h
  · cases h
  · cases h
  rename_i hds
  simp only [Except.ok.injEq, Prod.mk.injEq] at h
  obtain ⟨h1, rfl, _⟩ := h
  rw [h1] at hds
  have hi' : mkDep canon c oi = .ok ⟨(c.obj oi).tgt, []⟩ := by unfold mkDep; rw [hi]; rfl
  have hj' : mkDep canon c oj = .ok ⟨(c.obj oj).tgt, []⟩ := by unfold mkDep; rw [hj]; rfl
  rw [List.mapM_cons, hi', List.mapM_cons, hj'] at hds
  simp only [bind, Except.bind] at hds
  split at hds
  · cases hds
  · rename_i v hv
    split at hv
    · cases hv
    · cases hv
      cases hds
      exact ⟨_, rfl⟩

/-- the evaluation up to the point where all answers have been forgotten -/
theorem clear_all {t : Nat} : ∀ (l : List Nat) (tr : List NEv) (s : NSt), NExec c objs g n P calls need tr s → t ∈ s.pool.active →
    (∃ l', s.todo t = (l, l')) →
    ∃ s', NExec c objs g n P calls need (tr ++ List.replicate l.length (.eval t true)) s' ∧ s'.pool = s.pool ∧ s'.found = s.found ∧
      (∀ o ∈ l, s'.need o = none) ∧ ∀ o, s.need o = none → s'.need o = none := by
  intro l
  induction l with
  | nil => intro tr s hx _ _; exact ⟨s, by simpa using hx, rfl, rfl, by simp, fun _ h => h⟩
  | cons o l ih =>
    rintro tr s hx ha ⟨l', ht⟩
    have hst : nstep c objs g P calls s (.eval t true) = some { s with
          need := fun i => if i = o then none else s.need i, todo := fun i => if i = t then (l, l') else s.todo i } := by
      simp [nstep, ha, ht]
    obtain ⟨s', h1, h2, h3, h4, h5⟩ := ih _ _ (hx.snoc hst) ha ⟨l', by simp⟩
    refine ⟨s', ?_, h2, h3, ?_, ?_⟩
    · rw [List.length_cons, List.replicate_succ]
      simpa using h1
    · intro x hx0
      rcases List.mem_cons.1 hx0 with rfl | hx0
      · exact h5 _ (by simp)
      · exact h4 x hx0
    · intro x hx0
      refine h5 x ?_
      dsimp only
      split
      · rfl
      · exact hx0

/-- **C138 violated**, in every core: the closure has two targets without dependencies, the update function of one of them calls `core.do`, the
other is any updatable target; there are two workers or more.  Then there is an execution in which the second work function begins after
the first has made the core forget its answers; it raises, although no update function raises, and whatever happens then
`recurse_update` does not return.  (`setOrder`, the iteration order of a set, is such that these two targets come first.) -/
theorem C138_violated {setOrder : List Nat → List Nat} {order : Nat → List Nat → List Nat} (ho : IsOrder order) {root lim : Nat}
    {cache : Cache} {rt : Option (Option Int)} {threads : Option Int} {ds : List DTarget} {oi oj : Nat} {l : List Nat}
    (hrec : recurseUpdate canon c setOrder order lim cache rt root threads = .ok (oi :: oj :: l, ds, g, n))
    (hi : (c.obj oi).deps = []) (hj : (c.obj oj).deps = []) (hreg : Registered c oj) (hu : (c.obj oj).upd = true)
    (hcall : calls oi = true) (hni : need oi = some true) (hn : 2 ≤ n) (hP : 2 ≤ P) :
    ∃ tr s, NExec c (oi :: oj :: l) g n P calls need tr s ∧ NoRaise c (oi :: oj :: l) g n P calls need tr ∧
      NEv.pool (.ret 1 .raise) ∈ tr ∧
      ∀ tr' s', NExec c (oi :: oj :: l) g n P calls need (tr ++ tr') s' → ¬ s'.pool.loop.returned := by
  obtain ⟨ca, hprep, hg, k, hk, hnk⟩ := recurseUpdate_ok hrec
  obtain ⟨rest, hroots⟩ := roots_two hprep hi hj
  rw [← construct_roots hg] at hroots
  obtain ⟨m, rfl⟩ : ∃ m, n = m + 2 := ⟨n - 2, by omega⟩
  have x0 : NExec c (oi :: oj :: l) g (m + 2) P calls need [] _ := .init
  obtain ⟨s1, e1, a1, a2, a3, a4, a5, a6, a7, a8, a9⟩ : ∃ s1, nstep c (oi :: oj :: l) g P calls (ninit g (m + 2) need) (.pool (.loop (.start 0 0))) = some s1 ∧
      s1.pool.waiting = [0] ∧ s1.pool.active = [] ∧ s1.pool.loop.queue = 1 :: rest ∧ s1.pool.loop.ws[1]? = some .idle ∧
      s1.pool.loop.error = false ∧ s1.pool.loop.unfinished ≠ 0 ∧ s1.need = need ∧ (∀ t, s1.found t = none) ∧ ∀ t, s1.todo t = ([], []) := by
    refine ⟨_, by simp [nstep, pstep, Solver.step, ninit, pinit, Solver.init, hroots]; exact ⟨by omega, rfl⟩, ?_⟩
    simp
    omega
  have x1 := x0.snoc e1
  obtain ⟨s2, e2, b1, b2, b7, b8, b9⟩ : ∃ s2, nstep c (oi :: oj :: l) g P calls s1 (.pool (.loop (.start 1 1))) = some s2 ∧
      s2.pool.waiting = [0, 1] ∧ s2.pool.active = [] ∧ s2.need = need ∧ (∀ t, s2.found t = none) ∧ ∀ t, s2.todo t = ([], []) := by
    refine ⟨_, by simp [nstep, pstep, Solver.step, a3, a4, a5, a6]; rfl, ?_⟩
    simp [a1, a2, a7, a8, a9]
  have x2 := x1.snoc e2
  obtain ⟨s3, e3, c1, c2, c7, c8, c9⟩ : ∃ s3, nstep c (oi :: oj :: l) g P calls s2 (.pool (.begin 0)) = some s3 ∧
      s3.pool.waiting = [1] ∧ s3.pool.active = [0] ∧ s3.need = need ∧ s3.found 0 = some (some true) ∧ ∀ t, s3.todo t = ([], []) := by
    refine ⟨_, by simp [nstep, pstep, b1, b2]; exact ⟨by omega, rfl⟩, ?_⟩
    simp [b7, b9, hni]
  have x3 := x2.snoc e3
  obtain ⟨s4, e4, d1, d2, d7, d8, d9⟩ : ∃ s4, nstep c (oi :: oj :: l) g P calls s3 (.call 0) = some s4 ∧
      s4.pool.waiting = [1] ∧ s4.pool.active = [0] ∧ s4.need = need ∧ s4.found 0 = some (some true) ∧ s4.todo 0 = (evaluated c, evaluated c) := by
    refine ⟨_, by simp [nstep, NSt.inside, c2, c8, c9, hcall]; rfl, ?_⟩
    simp [c1, c2, c7, c8]
  have x4 := x3.snoc e4
  obtain ⟨s5, x5, f1, f2, f3, _⟩ := clear_all (evaluated c) _ _ x4 (by simp [d2]) ⟨_, d9⟩
  have hnj := f3 oj (mem_evaluated hreg hu)
  obtain ⟨s6, e6, g1, g2⟩ : ∃ s6, nstep c (oi :: oj :: l) g P calls s5 (.pool (.begin 1)) = some s6 ∧
      s6.pool.active = [0, 1] ∧ s6.found 1 = some none := by
    refine ⟨_, by simp [nstep, pstep, f1, d1, d2]; exact ⟨by omega, rfl⟩, ?_⟩
    simp [hnj]
  have x6 := x5.snoc e6
  obtain ⟨s7, e7⟩ : ∃ s7, nstep c (oi :: oj :: l) g P calls s6 (.pool (.ret 1 .raise)) = some s7 := by
    exact ⟨_, by simp [nstep, pstep, g1, g2]; rfl⟩
  have x7 := x6.snoc e7
  refine ⟨_, s7, x7, ?_, by simp, ?_⟩
  · intro pre post t s htr hx
    rcases List.eq_nil_or_concat post with rfl | ⟨post', e, rfl⟩
    · obtain ⟨h1, h2⟩ := List.append_inj' htr rfl
      cases h2
      subst h1
      cases hx.unique x6
      rw [g2]; simp
    · rw [List.concat_eq_append, ← List.cons_append, ← List.append_assoc] at htr
      obtain ⟨h1, _⟩ := List.append_inj' htr rfl
      have : NEv.pool (.ret t .raise) ∈ pre ++ NEv.pool (.ret t .raise) :: post' := by simp
      rw [← h1] at this
      simp at this
  · intro tr' s' hx'
    exact C08_threads ho hg hx'.pool 1 (mem_poolEvs.2 (by simp))

end Proofs

/-! ### examples -/

/-- several events one after the other -/
def nrun (c : Reg) (objs : List Nat) (g : Graph) (P : Nat) (calls : Nat → Bool) : NSt → List NEv → Option NSt
  | s, [] => some s
  | s, e :: es => (nstep c objs g P calls s e).bind fun s => nrun c objs g P calls s es

theorem nrun_exec {c : Reg} {objs : List Nat} {g : Graph} {n P : Nat} {calls : Nat → Bool} {need : Nat → Option Bool} :
    ∀ (es tr : List NEv) (s s' : NSt), NExec c objs g n P calls need tr s → nrun c objs g P calls s es = some s' →
      NExec c objs g n P calls need (tr ++ es) s' := by
  intro es
  induction es with
  | nil => intro tr s s' h he; cases he; simpa using h
  | cons e es ih =>
    intro tr s s' h he
    obtain ⟨s1, h1, h2⟩ := Option.bind_eq_some_iff.1 he
    simpa using ih (tr ++ [e]) s1 s' (h.snoc h1) h2

/-- routines `a` and `b`, and `top` which depends on both -/
def nestOps : List Op := [.add ⟨"a", [], true, [], "invoke_routine"⟩, .add ⟨"b", [], true, [], "invoke_routine"⟩,
  .add ⟨"top", ["a", "b"], true, [], "invoke_routine"⟩]

/-- the function of `a` calls `core.do` -/
def nestCalls : Nat → Bool := fun o => o == 0

def nestG : Graph where
  size := 3
  depcount := fun i => (([⟨"a", []⟩, ⟨"b", []⟩, ⟨"top", ["a", "b"]⟩] : List DTarget)[i]?.map (fun t => t.deps.length)).getD 0
  inv := fun i => ((Py.Dict.get [(0, [2]), (1, [2]), (2, [])] i).getD [])
  roots := [0, 1]

theorem nest_reg {n : String} {o : Nat} (h : Resolves id (runOps id Reg.empty nestOps) n o) :
    (n = "a" ∧ o = 0) ∨ (n = "b" ∧ o = 1) ∨ (n = "top" ∧ o = 2) := by
  have h' : (runOps id Reg.empty nestOps).targets.get n = some o := by
    rcases h with h | ⟨_, h⟩
    · exact h
    · exact h
  have := Dict.mem_of_get h'
  have he : (runOps id Reg.empty nestOps).targets = [("a", 0), ("b", 1), ("top", 2)] := rfl
  rw [he] at this
  simpa using this

theorem nest_dep {o o' : Nat} (h : ObjDep id (runOps id Reg.empty nestOps) o o') : o' < 2 ∧ 2 ≤ o := by
  obtain ⟨d, hd, hr⟩ := h
  have ho : o = 2 := by
    by_contra hne
    have h0 : ((runOps id Reg.empty nestOps).obj o).deps = [] := by
      rcases o with _ | _ | _ | o
      · rfl
      · rfl
      · exact absurd rfl hne
      · rfl
    rw [h0] at hd; cases hd
  subst ho
  have hd' : d ∈ ["a", "b"] := hd
  rcases nest_reg hr with ⟨rfl, rfl⟩ | ⟨rfl, rfl⟩ | ⟨rfl, rfl⟩
  · decide
  · decide
  · simp at hd'

theorem nest_rec (k : Int) : recurseUpdate id (runOps id Reg.empty nestOps) id (fun _ l => l) 10 [] none 2 (some k) =
    .ok ([0, 1, 2], [⟨"a", []⟩, ⟨"b", []⟩, ⟨"top", ["a", "b"]⟩], nestG, k.toNat) := rfl

/-- Witness for C138_violated: two routines without dependencies and one that depends on both; the first calls `core.do`. -/
theorem C138_violated_witness : NoReRegistration nestOps ∧ FullyRegistered id (runOps id Reg.empty nestOps) ∧
    Acyclic id (runOps id Reg.empty nestOps) ∧
    ∃ tr s, NExec (runOps id Reg.empty nestOps) [0, 1, 2] nestG 2 8 nestCalls (fun _ => some true) tr s ∧
      NoRaise (runOps id Reg.empty nestOps) [0, 1, 2] nestG 2 8 nestCalls (fun _ => some true) tr ∧
      ∀ tr' s', NExec (runOps id Reg.empty nestOps) [0, 1, 2] nestG 2 8 nestCalls (fun _ => some true) (tr ++ tr') s' →
        ¬ s'.pool.loop.returned := by
  refine ⟨by unfold NoReRegistration; decide, ?_, ?_, ?_⟩
  · rintro o ⟨n, hn⟩ d hd
    rcases nest_reg (Or.inl hn) with ⟨_, rfl⟩ | ⟨_, rfl⟩ | ⟨_, rfl⟩
    · cases hd
    · cases hd
    · have hd' : d ∈ ["a", "b"] := hd
      rcases List.mem_cons.1 hd' with rfl | hd'
      · exact ⟨0, Or.inl rfl⟩
      · rw [List.mem_singleton] at hd'; subst hd'
        exact ⟨1, Or.inl rfl⟩
  · intro o h
    have h1 : o < 2 := by
      cases h with
      | single h => exact (nest_dep h).1
      | tail _ h => exact (nest_dep h).1
    obtain ⟨x, hx, _⟩ := TransGen.head'_iff.1 h
    have := (nest_dep hx).2
    omega
  · obtain ⟨tr, s, h1, h2, _, h3⟩ := C138_violated (calls := nestCalls) (need := fun _ => some true) (P := 8)
      (fun i l => List.Perm.refl l) (nest_rec 2) rfl rfl ⟨"b", rfl⟩ rfl rfl rfl (by decide) (by decide)
    exact ⟨tr, s, h1, h2, h3⟩

/-- Non-vacuity of C138_partial: the same with one worker.  The function of `a` calls `core.do("b")`, then `b` and `top` run; `recurse_update`
returns `True`. -/
example : ∃ tr s, NExec (runOps id Reg.empty nestOps) [0, 1, 2] nestG 1 8 nestCalls (fun _ => some true) tr s ∧
    NEv.call 0 ∈ tr ∧ NEv.sub 0 1 ∈ tr ∧ (∀ t, NEv.pool (.ret t .raise) ∉ tr) ∧ s.pool.loop.returned ∧ s.pool.loop.verdict = true := by
  refine ⟨_, _, nrun_exec [.pool (.loop (.start 0 0)), .pool (.begin 0), .call 0, .eval 0 true, .eval 0 true, .eval 0 true, .eval 0 true, .eval 0 true,
    .eval 0 true, .sub 0 1, .pool (.ret 0 .ok), .pool (.loop (.finish 0 0 .ok)), .pool (.loop (.start 0 1)), .pool (.begin 1),
    .pool (.ret 1 .ok), .pool (.loop (.finish 0 1 .ok)), .pool (.loop (.start 0 2)), .pool (.begin 2), .pool (.ret 2 .ok),
    .pool (.loop (.finish 0 2 .ok))] [] _ _ .init rfl, by simp, by simp, by simp, rfl, rfl⟩

/-- `d`; the routine `r`, which depends on it; `t`, which depends on `d` as well; and `top`, which depends on both. -/
def skipOps : List Op := [.add ⟨"d", [], true, [], "update"⟩, .add ⟨"r", ["d"], true, [], "invoke_routine"⟩, .add ⟨"t", ["d"], true, [], "update"⟩,
  .add ⟨"top", ["r", "t"], true, [], "update"⟩]

/-- the answers of the update conditions: routines always have to be updated (core.py:141), `d` if it is out of date, the others (308) only because
of their dependencies -/
def skipIf (stale : Bool) : Nat → Except Err Bool := fun o => .ok (o == 1 || (o == 0 && stale))

def skipG : Graph where
  size := 4
  depcount := fun i => (([⟨"d", []⟩, ⟨"r", ["d"]⟩, ⟨"t", ["d"]⟩, ⟨"top", ["r", "t"]⟩] : List DTarget)[i]?.map (fun t => t.deps.length)).getD 0
  inv := fun i => ((Py.Dict.get [(0, [1, 2]), (1, [3]), (2, [3]), (3, [])] i).getD [])
  roots := [0]

/-- up to the end of the evaluation that the function of `r` causes -/
def skipPre : List NEv := [.pool (.loop (.start 0 0)), .pool (.begin 0), .pool (.ret 0 .ok), .pool (.loop (.finish 0 0 .ok)),
  .pool (.loop (.start 0 1)), .pool (.begin 1), .call 1, .eval 1 true, .eval 1 true, .eval 1 true, .eval 1 true,
  .eval 1 false, .eval 1 true, .eval 1 false, .eval 1 true]

def skipPost : List NEv := [.pool (.ret 1 .ok), .pool (.loop (.finish 0 1 .ok)), .pool (.loop (.start 0 2)), .pool (.begin 2),
  .pool (.ret 2 .ok), .pool (.loop (.finish 0 2 .ok)), .pool (.loop (.start 0 3)), .pool (.begin 3), .pool (.ret 3 .ok),
  .pool (.loop (.finish 0 3 .ok))]

/-- **C138 violated**, also with one worker.  `d` is out of date and is updated; then the function of `r` calls `core.do`, and as `d` is not out of
date any more, the new evaluation says that `t`, which depends on it, needs no update.  `recurse_update` returns `True`, and `t` was not
updated.  (Both times the answers are those of the evaluation, `updateNeeds`.) -/
theorem C138_violated_skipped : ∃ s1 s m m1 m2,
    recurseUpdate id (runOps id Reg.empty skipOps) id (fun _ l => l) 10 [] none 3 (some 1) =
      .ok ([0, 1, 2, 3], [⟨"d", []⟩, ⟨"r", ["d"]⟩, ⟨"t", ["d"]⟩, ⟨"top", ["r", "t"]⟩], skipG, 1) ∧
    updateNeeds id (runOps id Reg.empty skipOps) (skipIf true) 10 m = .ok m1 ∧
    NExec (runOps id Reg.empty skipOps) [0, 1, 2, 3] skipG 1 8 (fun o => o == 1) m1.need skipPre s1 ∧
    s1.found 0 = some (some true) ∧ NEv.pool (.ret 0 .ok) ∈ skipPre ∧
    updateNeeds id (runOps id Reg.empty skipOps) (skipIf false) 10 m1 = .ok m2 ∧ (∀ o < 4, s1.need o = m2.need o) ∧
    NExec (runOps id Reg.empty skipOps) [0, 1, 2, 3] skipG 1 8 (fun o => o == 1) m1.need (skipPre ++ skipPost) s ∧
    s.pool.loop.returned ∧ s.pool.loop.verdict = true ∧
    ObjDep id (runOps id Reg.empty skipOps) 2 0 ∧ s.found 2 = some (some false) := by
  refine ⟨_, _, ⟨fun _ => none, fun _ => none⟩, _, _, rfl, rfl, nrun_exec skipPre [] _ _ .init rfl, rfl, by simp [skipPre], rfl, ?_,
    nrun_exec (skipPre ++ skipPost) [] _ _ .init rfl, rfl, rfl, ⟨"d", by decide, Or.inl rfl⟩, rfl⟩
  intro o ho
  rcases o with _ | _ | _ | _ | o
  · rfl
  · rfl
  · rfl
  · rfl
  · omega

end Licant.Core
