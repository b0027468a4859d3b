/-
Update conditions that ask the core about targets (C139).
-/
import Verif.Core.Asked

set_option autoImplicit false

namespace Licant.Core
open Licant.Py Relation

variable {canon : String → String} {c : Reg}

/-! ### Model -/

/-- How an evaluation ends abnormally: as in `Err`, or with Python's `RuntimeError: dictionary changed size during iteration`. -/
inductive QErr where
  | core (e : Err)
  | changed
  deriving DecidableEq

/-- A condition that asks `has` (core.py:86-96; 59-60 `exist`) for some names, one after the other. -/
def askAll (canon : String → String) : Reg → List String → Reg × List Bool
  | c, [] => (c, [])
  | c, n :: l =>
    let r := has canon c n
    let r' := askAll canon r.1 l
    (r'.1, r.2 :: r'.2)

/-- core.py:336-347 `recursive_update_needed_request`, as `request`, where the condition of `o` asks `has` for the names `asks o` and answers
`ans o bs` if the answers were `bs`.  The registry is part of the state. -/
def requestQ (canon : String → String) (asks : Nat → List String) (ans : Nat → List Bool → Except Err Bool) (need : Nat → Option Bool) :
    (fuel : Nat) → (o : Nat) → (s : Reg × (Nat → Option (List Nat))) → Except QErr (Bool × Reg × (Nat → Option (List Nat)))
  | 0, _, _ => .error (.core .recursion)
  | fuel + 1, o, s =>
    if (s.1.obj o).upd = false then .error (.core .attribute)
    else match need o with
    | some b => .ok (b, s)
    | none =>
      let q := askAll canon s.1 (asks o)
      match ans o q.2 with
      | .error e => .error (.core e)
      | .ok true => .ok (true, q.1, s.2)
      | .ok false =>
        match getDeplist canon q.1 s.2 o with
        | .error e => .error (.core e)
        | .ok (l, cached) =>
          l.foldlM (fun (p : Bool × Reg × (Nat → Option (List Nat))) dep =>
            if p.1 then .ok p else requestQ canon asks ans need fuel dep p.2) (false, q.1, cached)

/-- core.py:322-325 / 212-213, as `evaluateOne` -/
def evaluateOneQ (canon : String → String) (asks : Nat → List String) (ans : Nat → List Bool → Except Err Bool) (lim : Nat)
    (s : Reg × Marks) (o : Nat) : Except QErr (Reg × Marks) :=
  if (s.1.obj o).upd then
    match requestQ canon asks ans s.2.need lim o (s.1, s.2.cached) with
    | .error e => .error e
    | .ok (b, c, cached) => .ok (c, { need := fun i => if i = o then some b else s.2.need i, cached := cached })
  else .ok s

/-- core.py:46-50, the loop over the dictionary, which had `size` keys at the beginning.  Python looks at the number of keys whenever it
is asked for the next value, also at the end. -/
def evaluateLoop (canon : String → String) (asks : Nat → List String) (ans : Nat → List Bool → Except Err Bool) (lim size : Nat) :
    List Nat → Reg × Marks → Except QErr (Reg × Marks)
  | [], s => if s.1.targets.length ≠ size then .error .changed else .ok s
  | o :: l, s =>
    if s.1.targets.length ≠ size then .error .changed
    else match evaluateOneQ canon asks ans lim s o with
      | .error e => .error e
      | .ok s => evaluateLoop canon asks ans lim size l s

/-- core.py:52-54 `update_update_needity` -/
def updateNeedsQ (canon : String → String) (asks : Nat → List String) (ans : Nat → List Bool → Except Err Bool) (lim : Nat)
    (c : Reg) (m : Marks) : Except QErr (Reg × Marks) :=
  evaluateLoop canon asks ans lim c.targets.length (c.targets.map (·.2)) (c, nullify c m)

/-! ### Specification -/

/-- a name that is not registered, for a path that is -/
def OtherSpelling (canon : String → String) (c : Reg) (n : String) : Prop := c.targets.get n = none ∧ ∃ o, c.targets.get (canon n) = some o

/-- what `has` answers -/
def known (canon : String → String) (c : Reg) (n : String) : Bool := (c.targets.get n).isSome || (c.targets.get (canon n)).isSome

/-! ### Proofs -/

/-- nothing or something was added -/
def Grown (c c' : Reg) : Prop := c.targets.length ≤ c'.targets.length ∧ (c'.targets.length = c.targets.length → c' = c)

theorem Grown.refl (c : Reg) : Grown c c := ⟨le_refl _, fun _ => rfl⟩

theorem Grown.trans {a b d : Reg} (h : Grown a b) (h' : Grown b d) : Grown a d := by
  refine ⟨h.1.trans h'.1, fun e => ?_⟩
  have h1 := h.1
  have h2 := h'.1
  have := h'.2 (by omega)
  subst this
  exact h.2 e

theorem has_cases (n : String) : (¬ OtherSpelling canon c n ∧ has canon c n = (c, known canon c n)) ∨
    (OtherSpelling canon c n ∧ (has canon c n).1.targets.length = c.targets.length + 1 ∧ (has canon c n).2 = true) := by
  unfold has OtherSpelling known Dict.has
  cases h : c.targets.get n with
  | some o => left; simp
  | none =>
    cases h' : c.targets.get (canon n) with
    | none => left; simp
    | some o => right; simp [dict_set_new h]

theorem has_grown (n : String) : Grown c (has canon c n).1 := by
  rcases has_cases (canon := canon) (c := c) n with ⟨_, h⟩ | ⟨_, h, _⟩
  · rw [h]; exact .refl c
  · exact ⟨by omega, fun e => by omega⟩

theorem askAll_grown (l : List String) : ∀ c : Reg, Grown c (askAll canon c l).1 := by
  induction l with
  | nil => intro c; exact .refl c
  | cons n l ih => intro c; exact (has_grown n).trans (ih _)

theorem askAll_more {l : List String} {n : String} (hn : n ∈ l) : ∀ c : Reg, OtherSpelling canon c n →
    c.targets.length < (askAll canon c l).1.targets.length := by
  induction l with
  | nil => cases hn
  | cons x l ih =>
    intro c h
    have hg := askAll_grown (canon := canon) l (has canon c x).1
    show _ < (askAll canon (has canon c x).1 l).1.targets.length
    rcases has_cases (canon := canon) (c := c) x with ⟨h1, h2⟩ | ⟨_, h2, _⟩
    · rcases List.mem_cons.1 hn with rfl | hn'
      · exact absurd h h1
      · rw [h2]; exact ih hn' c h
    · have := hg.1; omega

theorem askAll_same {l : List String} (h : ∀ n ∈ l, ¬ OtherSpelling canon c n) : askAll canon c l = (c, l.map (known canon c)) := by
  induction l with
  | nil => rfl
  | cons n l ih =>
    rcases has_cases (canon := canon) (c := c) n with ⟨_, h2⟩ | ⟨h1, _⟩
    · simp only [askAll, h2, ih fun x hx => h x (by simp [hx]), List.map_cons]
    · exact absurd h1 (h n (by simp))

variable {asks : Nat → List String} {ans : Nat → List Bool → Except Err Bool} {need : Nat → Option Bool}

theorem requestQ_grown (fuel : Nat) : ∀ (o : Nat) (s : Reg × (Nat → Option (List Nat))) (r : Bool × Reg × (Nat → Option (List Nat))),
    requestQ canon asks ans need fuel o s = .ok r → Grown s.1 r.2.1 := by
  induction fuel with
  | zero => intro o s r h; cases h
  | succ fuel ih =>
    intro o s r h
    simp only [requestQ] at h
    split at h
    · cases h
    · split at h
      · cases h; exact .refl _
      · split at h
        · cases h
        · cases h; exact askAll_grown _ _
        · split at h
          · cases h
          · rename_i l cached _
            refine (askAll_grown (canon := canon) (asks o) s.1).trans ?_
            have loop : ∀ (l : List Nat) (p r : Bool × Reg × (Nat → Option (List Nat))),
                l.foldlM (fun (p : Bool × Reg × (Nat → Option (List Nat))) dep =>
                  if p.1 then Except.ok p else requestQ canon asks ans need fuel dep p.2) p = .ok r → Grown p.2.1 r.2.1 := by
              intro l
              induction l with
              | nil => intro p r h; cases h; exact .refl _
              | cons d l ihl =>
                intro p r h
                simp only [List.foldlM_cons, bind, Except.bind] at h
                split at h
                · cases h
                · rename_i p' hp
                  refine Grown.trans ?_ (ihl p' r h)
                  split at hp
                  · cases hp; exact .refl _
                  · exact ih d p.2 p' hp
            exact loop l _ r h

/-- **C139 violated**: in every core, if the condition of some updatable target asks `has` for a path of a registered target that is
written in another way than the name of the target, no evaluation of the needs succeeds. -/
theorem C139_violated {lim : Nat} {m : Marks} {o : Nat} (hr : Registered c o) (hu : (c.obj o).upd = true) {n : String} (hn : n ∈ asks o)
    (ho : OtherSpelling canon c n) : ∀ r, updateNeedsQ canon asks ans lim c m ≠ .ok r := by
  have loop : ∀ (l : List Nat) (m : Marks), o ∈ l → m.need o = none → ∀ r,
      evaluateLoop canon asks ans lim c.targets.length l (c, m) ≠ .ok r := by
    intro l
    induction l with
    | nil => intro m h; cases h
    | cons x l ih =>
      intro m hm hnone r h
      rw [evaluateLoop, if_neg (by simp)] at h
      split at h
      · cases h
      · rename_i s hs
        -- the state after `x`
        have hdead : s.1.targets.length ≠ c.targets.length → False := by
          intro hne
          cases l <;> (rw [evaluateLoop, if_pos hne] at h; cases h)
        have hlen : s.1.targets.length = c.targets.length := by
          by_contra hne; exact hdead hne
        unfold evaluateOneQ at hs
        split at hs
        · split at hs
          · cases hs
          · rename_i b c' cached hreq
            cases hs
            have hc' : c' = c := (requestQ_grown lim x (c, m.cached) (b, c', cached) hreq).2 hlen
            subst hc'
            by_cases hxo : x = o
            · subst hxo
              -- the condition of `o` is called
              cases lim with
              | zero => cases hreq
              | succ lim =>
                simp only [requestQ, hu, hnone] at hreq
                have hmore := askAll_more (canon := canon) hn c' ho
                simp only [Bool.true_eq_false, if_false] at hreq
                split at hreq
                · cases hreq
                · have := congrArg (fun r : Except QErr (Bool × Reg × (Nat → Option (List Nat))) => match r with
                    | .ok r => r.2.1.targets.length
                    | .error _ => 0) hreq
                  simp only at this
                  omega
                · split at hreq
                  · cases hreq
                  · rename_i l' cached' _
                    have : Grown (askAll canon c' (asks x)).1 c' := by
                      have key : ∀ (l : List Nat) (p r : Bool × Reg × (Nat → Option (List Nat))),
                          l.foldlM (fun (p : Bool × Reg × (Nat → Option (List Nat))) dep =>
                            if p.1 then Except.ok p else requestQ canon asks ans m.need lim dep p.2) p = .ok r → Grown p.2.1 r.2.1 := by
                        intro l
                        induction l with
                        | nil => intro p r h; cases h; exact .refl _
                        | cons d l ihl =>
                          intro p r h
                          simp only [List.foldlM_cons, bind, Except.bind] at h
                          split at h
                          · cases h
                          · rename_i p' hp
                            refine Grown.trans ?_ (ihl p' r h)
                            split at hp
                            · cases hp; exact .refl _
                            · exact requestQ_grown lim d p.2 p' hp
                      exact key l' _ _ hreq
                    have := this.1
                    omega
            · exact ih _ ((List.mem_cons.1 hm).resolve_left (Ne.symm hxo)) (by simp [Ne.symm hxo, hnone]) r h
        · rename_i hux
          cases hs
          have hxo : o ≠ x := by rintro rfl; exact hux hu
          exact ih m ((List.mem_cons.1 hm).resolve_left hxo) hnone r h
  obtain ⟨nm, hnm⟩ := hr
  have hmem : o ∈ c.targets.map (·.2) := List.mem_map.2 ⟨_, Dict.mem_of_get hnm, rfl⟩
  exact loop _ _ hmem (by simp only [nullify]; rw [if_pos ⟨hmem, hu⟩])

theorem requestQ_same (hs : ∀ o n, n ∈ asks o → ¬ OtherSpelling canon c n) (fuel : Nat) : ∀ (o : Nat) (cached : Nat → Option (List Nat)),
    requestQ canon asks ans need fuel o (c, cached) =
      match request canon c (fun o => ans o ((asks o).map (known canon c))) need fuel o cached with
      | .error e => .error (.core e)
      | .ok r => .ok (r.1, c, r.2) := by
  induction fuel with
  | zero => intro o cached; rfl
  | succ fuel ih =>
    intro o cached
    simp only [requestQ, request, askAll_same (hs o), bind, Except.bind]
    split
    · rfl
    · cases need o with
      | some b => rfl
      | none =>
        simp only
        cases ans o ((asks o).map (known canon c)) with
        | error e => rfl
        | ok b =>
        cases b with
        | true => rfl
        | false =>
          simp only [Bool.false_eq_true, if_false]
          cases getDeplist canon c cached o with
          | error e => rfl
          | ok lc =>
            obtain ⟨l, cached'⟩ := lc
            have loop : ∀ (l : List Nat) (b : Bool) (ca : Nat → Option (List Nat)),
                l.foldlM (fun (p : Bool × Reg × (Nat → Option (List Nat))) dep =>
                  if p.1 then Except.ok p else requestQ canon asks ans need fuel dep p.2) (b, c, ca) =
                match l.foldlM (fun (p : Bool × (Nat → Option (List Nat))) dep =>
                  if p.1 then Except.ok p else
                    request canon c (fun o => ans o ((asks o).map (known canon c))) need fuel dep p.2) (b, ca) with
                | .error e => .error (.core e)
                | .ok r => .ok (r.1, c, r.2) := by
              intro l
              induction l with
              | nil => intro b ca; rfl
              | cons d l ihl =>
                intro b ca
                simp only [List.foldlM_cons, bind, Except.bind]
                cases b with
                | true => simp only [if_true]; exact ihl true ca
                | false =>
                  simp only [Bool.false_eq_true, if_false]
                  rw [ih d ca]
                  cases request canon c (fun o => ans o ((asks o).map (known canon c))) need fuel d ca with
                  | error e => rfl
                  | ok r => exact ihl r.1 r.2
            exact loop l false cached'

/-- **C139**, what holds: if no condition asks for another spelling of a registered path, the evaluation does what it would do if `has` left
the core alone, and the core is not changed.  Missing: other spellings (`C139_violated`). -/
theorem C139_partial (hs : ∀ o n, n ∈ asks o → ¬ OtherSpelling canon c n) (lim : Nat) (m : Marks) :
    updateNeedsQ canon asks ans lim c m =
      match updateNeeds canon c (fun o => ans o ((asks o).map (known canon c))) lim m with
      | .error e => .error (.core e)
      | .ok m' => .ok (c, m') := by
  have loop : ∀ (l : List Nat) (m : Marks), evaluateLoop canon asks ans lim c.targets.length l (c, m) =
      match l.foldlM (evaluateOne canon c (fun o => ans o ((asks o).map (known canon c))) lim) m with
      | .error e => .error (.core e)
      | .ok m' => .ok (c, m') := by
    intro l
    induction l with
    | nil => intro m; rw [evaluateLoop, if_neg (by simp)]; rfl
    | cons x l ih =>
      intro m
      rw [evaluateLoop, if_neg (by simp)]
      simp only [List.foldlM_cons, bind, Except.bind, evaluateOneQ, evaluateOne]
      by_cases hu : (c.obj x).upd = true
      · simp only [hu, if_true]
        rw [requestQ_same hs]
        cases request canon c (fun o => ans o ((asks o).map (known canon c))) m.need lim x m.cached with
        | error e => rfl
        | ok r => exact ih _
      · simp only [hu]
        exact ih m
  exact loop _ _

/-! ### examples -/

/-- a file, and a target whose condition asks for it -/
def condOps : List Op := [.add ⟨"/p/a", [], true, [], "update"⟩, .add ⟨"t", [], true, [], "update"⟩]

/-- `./a` is the path `/p/a` -/
def condCanon : String → String := fun n => if n = "./a" then "/p/a" else n

/-- Witness for C139_violated: the condition of `t` asks `has("./a")`; the exception is Python's RuntimeError. -/
theorem C139_violated_witness : NoReRegistration condOps ∧
    updateNeedsQ condCanon (fun o => if o = 1 then ["./a"] else []) (fun _ bs => .ok (bs.contains false)) 10
      (runOps condCanon Reg.empty condOps) ⟨fun _ => none, fun _ => none⟩ = .error .changed ∧
    OtherSpelling condCanon (runOps condCanon Reg.empty condOps) "./a" :=
  ⟨by unfold NoReRegistration; decide, rfl, rfl, 0, rfl⟩

/-- Non-vacuity of C139_partial: with the name under which the file is registered, and a name that is not known, the evaluation succeeds, and the
condition gets the right answers. -/
example : (∀ o n, n ∈ (fun o => if o = 1 then ["/p/a", "x"] else []) o → ¬ OtherSpelling condCanon (runOps condCanon Reg.empty condOps) n) ∧
    (match updateNeedsQ condCanon (fun o => if o = 1 then ["/p/a", "x"] else []) (fun o bs => .ok (o == 1 && bs == [true, false])) 10
      (runOps condCanon Reg.empty condOps) ⟨fun _ => none, fun _ => none⟩ with
      | .ok (_, m) => m.need 0 = some false ∧ m.need 1 = some true
      | .error _ => False) := by
  refine ⟨?_, rfl, rfl⟩
  intro o n hn
  by_cases ho : o = 1
  · subst ho
    have : n ∈ ["/p/a", "x"] := hn
    rcases List.mem_cons.1 this with rfl | h
    · rintro ⟨h, _⟩; exact absurd h (by decide)
    · rw [List.mem_singleton] at h; subst h
      rintro ⟨_, _, h⟩; cases (show none = some _ from h)
  · simp [ho] at hn

end Licant.Core
