/-
How often the evaluation of needs calls the conditions of targets (C134).
-/
import Verif.Core.Session
import Mathlib.Data.List.Nodup

set_option autoImplicit false

namespace Licant.Core
open Licant.Py Relation

/-! ### Model -/

/-- What an evaluation has done: the lists remembered by the targets, and the objects whose `update_if` was called. -/
structure Asking where
  cached : Nat → Option (List Nat)
  asked : List Nat

/-- core.py:336-347 `recursive_update_needed_request`, with the calls of `update_if` (340).  Here the answers may depend on what
was asked before. -/
def requestA (canon : String → String) (c : Reg) (updIf : List Nat → Nat → Except Err Bool) (need : Nat → Option Bool) :
    (fuel : Nat) → (o : Nat) → Asking → Except Err (Bool × Asking)
  | 0, _, _ => .error .recursion
  | fuel + 1, o, s =>
    if (c.obj o).upd = false then .error .attribute
    else match need o with
    | some b => .ok (b, s)
    | none =>
      match updIf s.asked o with
      | .error e => .error e
      | .ok true => .ok (true, { s with asked := s.asked ++ [o] })
      | .ok false =>
        match getDeplist canon c s.cached o with
        | .error e => .error e
        | .ok (l, cached) =>
          l.foldlM (fun (p : Bool × Asking) dep => if p.1 then .ok p else requestA canon c updIf need fuel dep p.2)
            (false, ⟨cached, s.asked ++ [o]⟩)

/-- core.py:322-325 / 212-213: `evaluate_update_needity` of one object -/
def evaluateOneA (canon : String → String) (c : Reg) (updIf : List Nat → Nat → Except Err Bool) (lim : Nat)
    (p : Marks × List Nat) (o : Nat) : Except Err (Marks × List Nat) :=
  if (c.obj o).upd then
    match requestA canon c updIf p.1.need lim o ⟨p.1.cached, p.2⟩ with
    | .error e => .error e
    | .ok (b, s) => .ok (⟨fun i => if i = o then some b else p.1.need i, s.cached⟩, s.asked)
  else .ok p

/-- core.py:52-54 `update_update_needity`, done by every `invoke` (284) -/
def updateNeedsA (canon : String → String) (c : Reg) (updIf : List Nat → Nat → Except Err Bool) (lim : Nat) (m : Marks) :
    Except Err (Marks × List Nat) :=
  (c.targets.map (·.2)).foldlM (evaluateOneA canon c updIf lim) (nullify c m, [])

/-! ### Specification -/

/-- every target was registered when the names of its dependencies already stood for targets -/
def DepsFirst (canon : String → String) (ops : List Op) : Prop :=
  ∀ a ob b, ops = a ++ .add ob :: b → ∀ d ∈ ob.deps, ∃ o, Resolves canon (runOps canon Reg.empty a) d o

/-! ### The evaluation is the one of Core/Model -/

variable {canon : String → String} {c : Reg}

theorem foldlM_forget {σ τ α : Type} (f : σ → α → Except Err σ) (g : τ → α → Except Err τ) (π : σ → τ)
    (h : ∀ s a, (f s a).map π = g (π s) a) : ∀ (l : List α) (s : σ), (l.foldlM f s).map π = l.foldlM g (π s) := by
  intro l
  induction l with
  | nil => intro s; rfl
  | cons a l ih =>
    intro s
    simp only [List.foldlM_cons, bind, Except.bind]
    rw [← h]
    cases f s a with
    | error e => rfl
    | ok s' => exact ih s'

theorem requestA_forget (updIf : Nat → Except Err Bool) (need : Nat → Option Bool) (fuel : Nat) : ∀ (o : Nat) (s : Asking),
    (requestA canon c (fun _ => updIf) need fuel o s).map (fun p => (p.1, p.2.cached)) =
      request canon c updIf need fuel o s.cached := by
  induction fuel with
  | zero => intro o s; rfl
  | succ fuel ih =>
    intro o s
    rw [request_succ]
    unfold requestA
    split
    · rfl
    · cases need o with
      | some b => rfl
      | none =>
        simp only
        cases updIf o with
        | error e => rfl
        | ok b =>
          cases b with
          | true => rfl
          | false =>
            simp only
            cases getDeplist canon c s.cached o with
            | error e => rfl
            | ok p =>
              obtain ⟨l, cached⟩ := p
              simp only
              refine foldlM_forget (π := fun p : Bool × Asking => (p.1, p.2.cached)) _ _ ?_ l _
              intro p a
              simp only
              split
              · rfl
              · exact ih a p.2

/-- If the answers do not depend on what was asked before, this is the evaluation of Core/Model. -/
theorem updateNeedsA_forget (updIf : Nat → Except Err Bool) (lim : Nat) (m : Marks) :
    (updateNeedsA canon c (fun _ => updIf) lim m).map (·.1) = updateNeeds canon c updIf lim m := by
  unfold updateNeedsA updateNeeds
  refine foldlM_forget (π := fun p : Marks × List Nat => p.1) _ _ ?_ _ _
  rintro ⟨m, l⟩ o
  unfold evaluateOneA evaluateOne
  split
  · have := requestA_forget (canon := canon) (c := c) updIf m.need lim o ⟨m.cached, l⟩
    simp only at this ⊢
    rw [← this]
    cases requestA canon c (fun _ => updIf) m.need lim o ⟨m.cached, l⟩ <;> rfl
  · rfl

/-! ### Proofs -/

theorem dict_set_new {d : Dict String Nat} {x : String} (h : d.get x = none) (v : Nat) : d.set x v = d ++ [(x, v)] := by
  induction d with
  | nil => rfl
  | cons p d ih =>
    obtain ⟨y, w⟩ := p
    simp only [Dict.get] at h
    simp only [Dict.set]
    split at h
    · cases h
    · rename_i hne
      rw [if_neg hne, ih h]; rfl

/-- in the order of the dictionary the dependencies of a target come before it -/
def Ordered (canon : String → String) (c : Reg) : Prop :=
  ∀ pre o post, c.targets.map (·.2) = pre ++ o :: post → ∀ d ∈ (c.obj o).deps, ∃ x ∈ pre, Resolves canon c d x

theorem append_last {l pre post : List Nat} {x o : Nat} (h : l ++ [x] = pre ++ o :: post) :
    (pre = l ∧ o = x) ∨ ∃ post', l = pre ++ o :: post' := by
  rcases List.eq_nil_or_concat post with rfl | ⟨post', y, rfl⟩
  · obtain ⟨h1, h2⟩ := List.append_inj' h rfl
    cases h2
    exact Or.inl ⟨h1.symm, rfl⟩
  · right
    have h' : l ++ [x] = (pre ++ o :: post') ++ [y] := by simpa using h
    exact ⟨post', (List.append_inj' h' rfl).1⟩

theorem DepsFirst.init {ops : List Op} {op : Op} (h : DepsFirst canon (ops ++ [op])) : DepsFirst canon ops := by
  intro a ob b e
  exact h a ob (b ++ [op]) (by rw [e]; simp)

theorem Session.ordered (hc : Idempotent canon) {ops : List Op} {m : Marks} (h : Session canon ops m)
    (hd : DepsFirst canon ops) : Ordered canon (runOps canon Reg.empty ops) := by
  induction h with
  | start =>
    intro pre o post h
    simp [runOps, Reg.empty] at h
  | @add ops m ob hs hnew ih =>
    have ih := ih hd.init
    have hfresh := fresh_runOps (canon := canon) ops Reg.empty (by simp [Reg.empty])
    have hn := nodup_runOps (canon := canon) ops Reg.empty (by simp [Reg.empty, Dict.keys])
    have hdo := hd ops ob [] rfl
    rw [runOps_append]
    simp only [runOps]
    generalize runOps canon Reg.empty ops = c at *
    have hnone : c.targets.get ob.tgt = none := by
      cases hg : c.targets.get ob.tgt with
      | none => rfl
      | some o => exact absurd (Or.inl hg) (hnew o)
    have hres : ∀ d x, Resolves canon c d x → Resolves canon (Core.add c ob).1 d x := by
      intro d x hr
      have h1 : ob.tgt ≠ d := by rintro rfl; exact hnew x hr
      unfold Resolves Core.add
      simp only [Dict.get_set, if_neg h1]
      rcases hr with hr | ⟨hr1, hr2⟩
      · exact Or.inl hr
      · have h2 : ob.tgt ≠ canon d := by intro e; rw [← e, hnone] at hr2; cases hr2
        exact Or.inr ⟨hr1, by rw [if_neg h2]; exact hr2⟩
    intro pre o post h d hdd
    have hv : (Core.add c ob).1.targets.map (·.2) = c.targets.map (·.2) ++ [c.next] := by
      simp [Core.add, dict_set_new hnone]
    rw [hv] at h
    rcases append_last h with ⟨rfl, rfl⟩ | ⟨post', h⟩
    · have : d ∈ ob.deps := by simpa [Core.add] using hdd
      obtain ⟨x, hx⟩ := hdo d this
      exact ⟨x, (registered_iff_mem hn).1 hx.registered, hres d x hx⟩
    · have ho : Registered c o := (registered_iff_mem hn).2 (by rw [h]; simp)
      obtain ⟨k, hk⟩ := ho
      have hlt := hfresh k o hk
      have : d ∈ (c.obj o).deps := by
        have hne : o ≠ c.next := by omega
        simpa [Core.add, hne] using hdd
      obtain ⟨x, hx, hr⟩ := ih pre o post' h d this
      exact ⟨x, hx, hres d x hr⟩
  | @has ops m n hs ih =>
    have ih := ih hd.init
    rw [runOps_append]
    simp only [runOps]
    have hn := nodup_runOps (canon := canon) ops Reg.empty (by simp [Reg.empty, Dict.keys])
    generalize runOps canon Reg.empty ops = c at *
    have hobj : (Core.has canon c n).1.obj = c.obj := by
      unfold Core.has; split
      · rfl
      · split <;> rfl
    have hres : ∀ d x, Resolves canon c d x → Resolves canon (Core.has canon c n).1 d x := by
      intro d x hr
      rw [← get_ok, has_get hc, get_ok]; exact hr
    have key : ∀ pre o post, c.targets.map (·.2) = pre ++ o :: post → ∀ d ∈ (c.obj o).deps,
        ∃ x ∈ pre, Resolves canon (Core.has canon c n).1 d x := by
      intro pre o post h d hdd
      obtain ⟨x, hx, hr⟩ := ih pre o post h d hdd
      exact ⟨x, hx, hres d x hr⟩
    intro pre o post h d hdd
    rw [hobj] at hdd
    have hv : (Core.has canon c n).1.targets = c.targets ∨
        ∃ o', Registered c o' ∧ (Core.has canon c n).1.targets.map (·.2) = c.targets.map (·.2) ++ [o'] := by
      unfold Core.has
      split
      · exact Or.inl rfl
      · rename_i hnn
        split
        · rename_i o' ho'
          right
          refine ⟨o', ⟨_, ho'⟩, ?_⟩
          have : c.targets.get n = none := by simpa [Dict.has] using hnn
          simp [dict_set_new this]
        · exact Or.inl rfl
    rcases hv with hv | ⟨o', ho', hv⟩
    · rw [hv] at h; exact key pre o post h d hdd
    · rw [hv] at h
      rcases append_last h with ⟨rfl, rfl⟩ | ⟨post', h⟩
      · obtain ⟨p1, p2, hp⟩ := List.append_of_mem ((registered_iff_mem hn).1 ho')
        obtain ⟨x, hx, hr⟩ := key p1 o p2 hp d hdd
        exact ⟨x, by rw [hp]; simp [hx], hr⟩
      · exact key pre o post' h d hdd
  | eval _ _ _ _ ih => exact ih hd

/-- a request to a target that is marked asks nothing -/
theorem requestA_marked {updIf : List Nat → Nat → Except Err Bool} {need : Nat → Option Bool} {fuel o : Nat} {s s' : Asking}
    {b : Bool} (hn : (c.obj o).upd = true → need o ≠ none)
    (h : requestA canon c updIf need fuel o s = .ok (b, s')) : s' = s := by
  cases fuel with
  | zero => cases h
  | succ fuel =>
    unfold requestA at h
    split at h
    · cases h
    · rename_i hu
      split at h
      · cases h; rfl
      · rename_i he
        exact absurd he (hn (by simpa using hu))

theorem foldl_marked {updIf : List Nat → Nat → Except Err Bool} {need : Nat → Option Bool} {fuel : Nat} :
    ∀ (l : List Nat) (p p' : Bool × Asking), (∀ o ∈ l, (c.obj o).upd = true → need o ≠ none) →
    l.foldlM (fun (p : Bool × Asking) dep => if p.1 then .ok p else requestA canon c updIf need fuel dep p.2) p = .ok p' →
    p'.2 = p.2 := by
  intro l
  induction l with
  | nil => intro p p' _ h; cases h; rfl
  | cons o l ih =>
    intro p p' hl h
    simp only [List.foldlM_cons, bind, Except.bind] at h
    split at h
    · cases h
    · rename_i p1 h1
      have := ih p1 p' (fun x hx => hl x (by simp [hx])) h
      rw [this]
      split at h1
      · cases h1; rfl
      · obtain ⟨b, s⟩ := p1
        exact requestA_marked (hl o (by simp)) h1

/-- **C134**, what holds: if every target was registered after the targets it depends on, an evaluation (whatever the
conditions answer, and even if an answer depends on what was asked before) calls `update_if` of every registered updatable
target exactly once, and of nothing else.  Missing: other orders of registration (`C134_violated`). -/
theorem C134_partial (hc : Idempotent canon) {ops : List Op} {m m' : Marks} (hs : Session canon ops m)
    (hd : DepsFirst canon ops) (updIf : List Nat → Nat → Except Err Bool) (lim : Nat) (asked : List Nat)
    (h : updateNeedsA canon (runOps canon Reg.empty ops) updIf lim m = .ok (m', asked)) :
    asked.Nodup ∧ ∀ o, o ∈ asked ↔
      Registered (runOps canon Reg.empty ops) o ∧ ((runOps canon Reg.empty ops).obj o).upd = true := by
  have hord := hs.ordered hc hd
  have hco := (hs.inv hc).2.1
  have hn := nodup_runOps (canon := canon) ops Reg.empty (by simp [Reg.empty, Dict.keys])
  generalize runOps canon Reg.empty ops = c at *
  have loop : ∀ (suf pre : List Nat) (p p' : Marks × List Nat), c.targets.map (·.2) = pre ++ suf →
      Coherent canon c p.1.cached → (∀ x, x ∈ pre → (c.obj x).upd = true → p.1.need x ≠ none) →
      (∀ x ∈ suf, x ∉ pre → (c.obj x).upd = true → p.1.need x = none) → p.2.Nodup →
      (∀ x, x ∈ p.2 ↔ x ∈ pre ∧ (c.obj x).upd = true) →
      suf.foldlM (evaluateOneA canon c updIf lim) p = .ok p' →
      p'.2.Nodup ∧ ∀ x, x ∈ p'.2 ↔ x ∈ c.targets.map (·.2) ∧ (c.obj x).upd = true := by
    intro suf
    induction suf with
    | nil =>
      intro pre p p' hv _ _ _ h5 h6 h
      cases h
      rw [hv, List.append_nil]
      exact ⟨h5, h6⟩
    | cons o suf ih =>
      intro pre p p' hv h2 h3 h4 h5 h6 h
      simp only [List.foldlM_cons, bind, Except.bind] at h
      split at h
      · cases h
      · rename_i p1 h1
        have hv' : c.targets.map (·.2) = (pre ++ [o]) ++ suf := by rw [hv]; simp
        unfold evaluateOneA at h1
        split at h1
        · rename_i hu
          split at h1
          · cases h1
          · rename_i b s hq
            cases h1
            have hneed : ∀ x, x ∈ pre ++ [o] → (c.obj x).upd = true →
                (if x = o then some b else p.1.need x) ≠ none := by
              intro x hx hux
              split
              · simp
              · rename_i hne
                refine h3 x ?_ hux
                rcases List.mem_append.1 hx with hx | hx
                · exact hx
                · exact absurd (List.mem_singleton.1 hx) hne
            have hneed' : ∀ x ∈ suf, x ∉ pre ++ [o] → (c.obj x).upd = true →
                (if x = o then some b else p.1.need x) = none := by
              intro x hx hx' hux
              have hne : x ≠ o := by rintro rfl; exact hx' (by simp)
              rw [if_neg hne]
              exact h4 x (by simp [hx]) (fun hp => hx' (by simp [hp])) hux
            by_cases hop : o ∈ pre
            · have hs' := requestA_marked (h3 o hop) hq
              refine ih (pre ++ [o]) _ p' hv' ?_ hneed hneed' ?_ ?_ h
              · rw [hs']; exact h2
              · rw [hs']; exact h5
              · rw [hs']
                intro x
                rw [h6 x]
                constructor
                · rintro ⟨hx, hux⟩; exact ⟨by simp [hx], hux⟩
                · rintro ⟨hx, hux⟩
                  rcases List.mem_append.1 hx with hx | hx
                  · exact ⟨hx, hux⟩
                  · rw [List.mem_singleton.1 hx]; exact ⟨hop, hu⟩
            · have hnone := h4 o (by simp) hop hu
              have key : s.asked = p.2 ++ [o] ∧ Coherent canon c s.cached := by
                cases lim with
                | zero => cases hq
                | succ lim =>
                  unfold requestA at hq
                  rw [if_neg (by simp [hu]), hnone] at hq
                  simp only at hq
                  split at hq
                  · cases hq
                  · cases hq; exact ⟨rfl, h2⟩
                  · split at hq
                    · cases hq
                    · rename_i l cached hg
                      obtain ⟨hl, hco1⟩ := getDeplist_ok h2 hg
                      have := foldl_marked l _ _ (by
                        intro x hx hux
                        obtain ⟨d, hd1, hd2⟩ := (hl x).1 hx
                        obtain ⟨y, hy, hry⟩ := hord pre o suf hv d hd1
                        rw [hd2.unique hry]
                        rw [hd2.unique hry] at hux
                        exact h3 y hy hux) hq
                      simp only at this
                      rw [this]
                      exact ⟨rfl, hco1⟩
              refine ih (pre ++ [o]) _ p' hv' key.2 hneed hneed' ?_ ?_ h
              · simp only [key.1]
                rw [List.nodup_append]
                refine ⟨h5, by simp, ?_⟩
                rintro x hx y hy rfl
                rw [List.mem_singleton.1 hy] at hx
                exact hop ((h6 o).1 hx).1
              · intro x
                simp only [key.1, List.mem_append, List.mem_singleton]
                rw [h6 x]
                constructor
                · rintro (⟨hx, hux⟩ | rfl)
                  · exact ⟨Or.inl hx, hux⟩
                  · exact ⟨Or.inr rfl, hu⟩
                · rintro ⟨hx | rfl, hux⟩
                  · exact Or.inl ⟨hx, hux⟩
                  · exact Or.inr rfl
        · rename_i hu
          cases h1
          refine ih (pre ++ [o]) p p' hv' h2 ?_ ?_ h5 ?_ h
          · intro x hx hux
            rcases List.mem_append.1 hx with hx | hx
            · exact h3 x hx hux
            · rw [List.mem_singleton.1 hx] at hux; exact absurd hux hu
          · intro x hx hx' hux
            exact h4 x (by simp [hx]) (fun hp => hx' (by simp [hp])) hux
          · intro x
            rw [h6 x]
            constructor
            · rintro ⟨hx, hux⟩; exact ⟨by simp [hx], hux⟩
            · rintro ⟨hx, hux⟩
              rcases List.mem_append.1 hx with hx | hx
              · exact ⟨hx, hux⟩
              · rw [List.mem_singleton.1 hx] at hux; exact absurd hux hu
  unfold updateNeedsA at h
  have := loop _ [] _ _ rfl hco (by simp) (by
    intro x hx _ hux
    simp only [nullify]
    rw [if_pos ⟨hx, hux⟩]) (by simp) (by simp) h
  refine ⟨this.1, fun o => ?_⟩
  rw [registered_iff_mem hn]
  exact this.2 o

/-- a diamond, the dependencies first -/
def diamondOps : List Op :=
  [.add ⟨"a", [], true, [], "x"⟩, .add ⟨"b", ["a"], true, [], "x"⟩, .has "b", .add ⟨"c", ["a"], true, [], "x"⟩,
    .add ⟨"d", ["b", "c"], true, [], "x"⟩]

/-- Non-vacuity: a diamond meets the assumptions; its four conditions are asked once each. -/
example : Session id diamondOps noMarks ∧ DepsFirst id diamondOps ∧
    ∃ m', updateNeedsA id (runOps id Reg.empty diamondOps) (fun _ _ => .ok false) 10 noMarks = .ok (m', [0, 1, 2, 3]) := by
  have fresh : ∀ (c : Reg) (n : String), c.targets.get n = none → ∀ o, ¬ Resolves id c n o := by
    rintro c n h o (h' | ⟨_, h'⟩)
    · rw [h] at h'; cases h'
    · rw [id, h] at h'; cases h'
  refine ⟨((((Session.start.add _ (fresh _ _ rfl)).add _ (fresh _ _ rfl)).has "b").add _ (fresh _ _ rfl)).add _ (fresh _ _ rfl),
    ?_, _, rfl⟩
  intro a ob b h
  match a, h with
  | [], h => cases h; simp
  | [x], h => cases h; intro d hd; simp at hd; subst hd; exact ⟨0, Or.inl rfl⟩
  | [x, y], h => cases h
  | [x, y, z], h => cases h; intro d hd; simp at hd; subst hd; exact ⟨0, Or.inl rfl⟩
  | [x, y, z, w], h =>
    cases h
    intro d hd
    simp at hd
    rcases hd with rfl | rfl
    · exact ⟨1, Or.inl rfl⟩
    · exact ⟨2, Or.inl rfl⟩
  | x :: y :: z :: w :: v :: a, h => cases a <;> cases h

/-! ### The violation -/

/-- the name of the `i`-th target -/
def stepName (i : Nat) : String := String.ofList (List.replicate i 'x')

/-- `n + 1` targets, each of which depends on the next two, registered in the order in which a reader of the script would
write them top down -/
def stairs (n : Nat) : List Op :=
  (List.range (n + 1)).map fun i => .add ⟨stepName i, ([i + 1, i + 2].filter (· ≤ n)).map stepName, true, [], "update"⟩

theorem stepName_inj {i j : Nat} (h : stepName i = stepName j) : i = j := by
  have := congrArg (fun s : String => s.toList.length) h
  simpa [stepName] using this

theorem steps_get (k i : Nat) : Dict.get ((List.range k).map fun i => (stepName i, i)) (stepName i) =
    if i < k then some i else none := by
  have gen : ∀ l : List Nat, Dict.get (l.map fun i => (stepName i, i)) (stepName i) = if i ∈ l then some i else none := by
    intro l
    induction l with
    | nil => rfl
    | cons j l ih =>
      simp only [List.map_cons, Dict.get, ih, List.mem_cons]
      by_cases h : j = i
      · subst h; simp
      · have h1 : stepName j ≠ stepName i := fun e => h (stepName_inj e)
        have h2 : ¬ i = j := fun e => h e.symm
        simp [h1, h2]
  simpa using gen (List.range k)

/-- the object number `i` of `stairs n` -/
def stepObj (n i : Nat) : Obj := ⟨stepName i, ([i + 1, i + 2].filter (· ≤ n)).map stepName, true, [], "update"⟩

theorem stairs_prefix (n k : Nat) :
    let c := runOps id Reg.empty ((List.range k).map fun i => .add (stepObj n i))
    c.targets = (List.range k).map (fun i => (stepName i, i)) ∧ (∀ i < k, c.obj i = stepObj n i) ∧
      (∀ i, k ≤ i → (c.obj i).deps = []) ∧ c.next = k := by
  induction k with
  | zero => simp [runOps, Reg.empty]
  | succ k ih =>
    simp only [List.range_succ, List.map_append, List.map_cons, List.map_nil] at ih ⊢
    rw [runOps_append]
    simp only [runOps]
    generalize runOps id Reg.empty ((List.range k).map fun i => .add (stepObj n i)) = c at *
    obtain ⟨h1, h2, h4, h3⟩ := ih
    have hnone : c.targets.get (stepObj n k).tgt = none := by
      rw [h1]; simp [stepObj, steps_get]
    refine ⟨?_, ?_, ?_, by simp [Core.add, h3]⟩
    · show c.targets.set (stepObj n k).tgt c.next = _
      rw [dict_set_new hnone, h1, h3]; rfl
    · intro i hi
      simp only [Core.add, h3]
      split
      · rename_i e; rw [e]
      · exact h2 i (by omega)
    · intro i hi
      have hne : i ≠ k := by omega
      simpa [Core.add, h3, hne] using h4 i (by omega)

theorem stairs_session (n k : Nat) : Session id ((List.range k).map fun i => .add (stepObj n i)) noMarks := by
  induction k with
  | zero => exact .start
  | succ k ih =>
    rw [List.range_succ, List.map_append]
    refine ih.add _ ?_
    intro o hr
    obtain ⟨h1, _⟩ := stairs_prefix n k
    have hg : Dict.get ((List.range k).map fun i => (stepName i, i)) (stepName k) = some o := by
      rcases hr with hr | ⟨_, hr⟩
      · rw [h1] at hr; exact hr
      · rw [h1] at hr; exact hr
    rw [steps_get, if_neg (by omega)] at hg
    cases hg

theorem stairs_dep {n o o' : Nat} (h : ObjDep id (runOps id Reg.empty (stairs n)) o o') : o < o' := by
  obtain ⟨h1, h2, h4, _⟩ := stairs_prefix n (n + 1)
  obtain ⟨d, hd, hr⟩ := h
  change d ∈ ((runOps id Reg.empty ((List.range (n + 1)).map fun i => .add (stepObj n i))).obj o).deps at hd
  change Resolves id (runOps id Reg.empty ((List.range (n + 1)).map fun i => .add (stepObj n i))) d o' at hr
  by_cases ho : o ≤ n
  · rw [h2 o (by omega)] at hd
    simp only [stepObj, List.mem_map, List.mem_filter] at hd
    obtain ⟨x, ⟨hx, _⟩, rfl⟩ := hd
    have hx' : o < x := by simp at hx; omega
    have hg : Dict.get ((List.range (n + 1)).map fun i => (stepName i, i)) (stepName x) = some o' := by
      rcases hr with hr | ⟨_, hr⟩
      · rw [h1] at hr; exact hr
      · rw [h1] at hr; exact hr
    rw [steps_get] at hg
    split at hg
    · cases hg; exact hx'
    · cases hg
  · rw [h4 o (by omega)] at hd; cases hd

theorem stairs_reg (n : Nat) :
    (runOps id Reg.empty (stairs n)).targets = (List.range (n + 1)).map (fun i => (stepName i, i)) ∧
    ∀ i ≤ n, (runOps id Reg.empty (stairs n)).obj i = stepObj n i := by
  have := stairs_prefix n (n + 1)
  exact ⟨this.1, fun i hi => this.2.1 i (by omega)⟩

/-- the lists remembered for the stairs are the right ones -/
def StepsCached (n : Nat) (cached : Nat → Option (List Nat)) : Prop :=
  ∀ i ≤ n, ∀ l, cached i = some l → l = [i + 1, i + 2].filter (· ≤ n)

theorem stairs_deplist {n i : Nat} (hi : i ≤ n) {cached : Nat → Option (List Nat)} (hc : StepsCached n cached) :
    ∃ cached', getDeplist id (runOps id Reg.empty (stairs n)) cached i = .ok ([i + 1, i + 2].filter (· ≤ n), cached') ∧
      StepsCached n cached' := by
  obtain ⟨h1, h2⟩ := stairs_reg n
  unfold getDeplist
  cases he : cached i with
  | some l => exact ⟨cached, by rw [hc i hi l he], hc⟩
  | none =>
    have : ((runOps id Reg.empty (stairs n)).obj i).deps.mapM (get id (runOps id Reg.empty (stairs n))) =
        .ok ([i + 1, i + 2].filter (· ≤ n)) := by
      rw [h2 i hi, mapM_get]
      simp only [stepObj, List.forall₂_map_left_iff]
      rw [List.forall₂_same]
      intro x hx
      left
      have hxn : x ≤ n := by simpa using (List.mem_filter.1 hx).2
      rw [h1, steps_get, if_pos (by omega)]
    rw [this]
    refine ⟨_, rfl, ?_⟩
    intro j hj l hl
    simp only at hl
    split at hl
    · rename_i e; cases hl; rw [e]
    · exact hc j hj l hl

/-- from the target `k` below the last one, the last one is asked `2 ^ (k / 2)` times -/
theorem stairs_request (n k : Nat) : ∀ (need : Nat → Option Bool) (fuel : Nat) (s : Asking), k ≤ n → k < fuel →
    (∀ i, n - k ≤ i → need i = none) → StepsCached n s.cached →
    ∃ cached ext, requestA id (runOps id Reg.empty (stairs n)) (fun _ _ => .ok false) need fuel (n - k) s =
        .ok (false, ⟨cached, s.asked ++ ext⟩) ∧ StepsCached n cached ∧ 2 ^ (k / 2) ≤ ext.count n := by
  induction k using Nat.strong_induction_on with
  | _ k ih =>
    intro need fuel s hk hf hneed hc
    obtain ⟨fuel, rfl⟩ : ∃ f, fuel = f + 1 := ⟨fuel - 1, by omega⟩
    have hobj := (stairs_reg n).2 (n - k) (by omega)
    obtain ⟨cached1, hg, hc1⟩ := stairs_deplist (i := n - k) (by omega) hc
    unfold requestA
    rw [hobj, hneed (n - k) (by omega)]
    simp only [stepObj, Bool.true_eq_false, if_false, hg]
    match k, ih, hk, hf, hneed with
    | 0, _, _, _, _ =>
      refine ⟨cached1, [n], ?_, hc1, by simp⟩
      have e : [n - 0 + 1, n - 0 + 2].filter (· ≤ n) = [] := by simp
      rw [e]; rfl
    | 1, ih, hk, hf, hneed =>
      have e : [n - 1 + 1, n - 1 + 2].filter (· ≤ n) = [n - 0] := by
        have h1 : n - 1 + 1 = n := by omega
        have h2 : ¬ n - 1 + 2 ≤ n := by omega
        simp [h1, h2]
      rw [e]
      obtain ⟨ca, ext, hr, hca, hcnt⟩ := ih 0 (by omega) need fuel ⟨cached1, s.asked ++ [n - 1]⟩ (by omega) (by omega)
        (fun i hi => hneed i (by omega)) hc1
      refine ⟨ca, [n - 1] ++ ext, ?_, hca, ?_⟩
      · simp only [List.foldlM_cons, List.foldlM_nil, bind, Except.bind, Bool.false_eq_true, if_false, hr]
        simp [pure, Except.pure]
      · have h0 : 2 ^ (0 / 2) = 1 := rfl
        have h1 : 2 ^ (1 / 2) = 1 := rfl
        rw [List.count_append]; omega
    | k + 2, ih, hk, hf, hneed =>
      have e : [n - (k + 2) + 1, n - (k + 2) + 2].filter (· ≤ n) = [n - (k + 1), n - k] := by
        have h1 : n - (k + 2) + 1 = n - (k + 1) := by omega
        have h2 : n - (k + 2) + 2 = n - k := by omega
        simp [h1, h2]
      rw [e]
      obtain ⟨ca, ext, hr, hca, hcnt⟩ := ih (k + 1) (by omega) need fuel ⟨cached1, s.asked ++ [n - (k + 2)]⟩ (by omega)
        (by omega) (fun i hi => hneed i (by omega)) hc1
      obtain ⟨ca', ext', hr', hca', hcnt'⟩ := ih k (by omega) need fuel ⟨ca, s.asked ++ [n - (k + 2)] ++ ext⟩ (by omega)
        (by omega) (fun i hi => hneed i (by omega)) hca
      refine ⟨ca', [n - (k + 2)] ++ ext ++ ext', ?_, hca', ?_⟩
      · simp only [List.foldlM_cons, List.foldlM_nil, bind, Except.bind, Bool.false_eq_true, if_false, hr, hr']
        simp [pure, Except.pure]
      · have h1 : 2 ^ (k / 2) ≤ 2 ^ ((k + 1) / 2) := Nat.pow_le_pow_right (by omega) (by omega)
        have h2 : (k + 2) / 2 = k / 2 + 1 := by omega
        rw [List.count_append, List.count_append, h2, pow_succ]
        omega

theorem stairs_loop (n lim : Nat) (hlim : n < lim) : ∀ (r j : Nat) (p : Marks × List Nat), j + r = n + 1 →
    (∀ i, j ≤ i → p.1.need i = none) → StepsCached n p.1.cached →
    ∃ p' ext, (List.range' j r).foldlM (evaluateOneA id (runOps id Reg.empty (stairs n)) (fun _ _ => .ok false) lim) p = .ok p' ∧
      p'.2 = p.2 ++ ext ∧ (0 < r → 2 ^ ((n - j) / 2) ≤ ext.count n) := by
  intro r
  induction r with
  | zero => intro j p _ _ _; exact ⟨p, [], rfl, by simp, by simp⟩
  | succ r ih =>
    intro j p hj hneed hc
    obtain ⟨ca, ext, hr, hca, hcnt⟩ := stairs_request n (n - j) p.1.need lim ⟨p.1.cached, p.2⟩ (by omega) (by omega)
      (fun i hi => hneed i (by omega)) hc
    have hjj : n - (n - j) = j := by omega
    rw [hjj] at hr
    have hone : evaluateOneA id (runOps id Reg.empty (stairs n)) (fun _ _ => .ok false) lim p j =
        .ok (⟨fun i => if i = j then some false else p.1.need i, ca⟩, p.2 ++ ext) := by
      unfold evaluateOneA
      rw [hr, (stairs_reg n).2 j (by omega)]
      simp [stepObj]
    obtain ⟨p', ext', hp, he, _⟩ := ih (j + 1) (⟨fun i => if i = j then some false else p.1.need i, ca⟩, p.2 ++ ext) (by omega)
      (by
        intro i hi
        have : i ≠ j := by omega
        simp only [if_neg this]
        exact hneed i (by omega)) hca
    refine ⟨p', ext ++ ext', ?_, by rw [he]; simp, fun _ => ?_⟩
    · rw [List.range'_succ]
      simp only [List.foldlM_cons, bind, Except.bind, hone]
      exact hp
    · rw [List.count_append]; omega

/-- **C134 violated**: `2 n + 1` targets, each of which depends on at most two others, registered top down, nothing out of
date: one evaluation, which succeeds, calls `update_if` of the last target at least `2 ^ n` times. -/
theorem C134_violated (n lim : Nat) (hlim : 2 * n < lim) :
    (stairs (2 * n)).length = 2 * n + 1 ∧ Session id (stairs (2 * n)) noMarks ∧
    (∀ o, ((runOps id Reg.empty (stairs (2 * n))).obj o).deps.length ≤ 2) ∧
    Acyclic id (runOps id Reg.empty (stairs (2 * n))) ∧
    ∃ m' asked, updateNeedsA id (runOps id Reg.empty (stairs (2 * n))) (fun _ _ => .ok false) lim noMarks = .ok (m', asked) ∧
      2 ^ n ≤ asked.count (2 * n) := by
  obtain ⟨h1, h2, h4, _⟩ := stairs_prefix (2 * n) (2 * n + 1)
  refine ⟨by simp [stairs], stairs_session _ _, ?_, ?_, ?_⟩
  · intro o
    change ((runOps id Reg.empty ((List.range (2 * n + 1)).map fun i => .add (stepObj (2 * n) i))).obj o).deps.length ≤ 2
    by_cases ho : o < 2 * n + 1
    · rw [h2 o ho]
      simp only [stepObj, List.length_map]
      exact List.length_filter_le _ _
    · rw [h4 o (by omega)]; simp
  · intro o ho
    have : ∀ a b, TransGen (ObjDep id (runOps id Reg.empty (stairs (2 * n)))) a b → a < b := by
      intro a b hab
      induction hab with
      | single h => exact stairs_dep h
      | tail _ h ih => exact ih.trans (stairs_dep h)
    exact absurd (this o o ho) (lt_irrefl _)
  · unfold updateNeedsA
    have hv : (runOps id Reg.empty (stairs (2 * n))).targets.map (·.2) = List.range' 0 (2 * n + 1) := by
      rw [(stairs_reg (2 * n)).1, ← List.range_eq_range', List.map_map]
      exact List.map_id _
    rw [hv]
    obtain ⟨p', ext, hp, he, hcnt⟩ := stairs_loop (2 * n) lim hlim (2 * n + 1) 0
      (nullify (runOps id Reg.empty (stairs (2 * n))) noMarks, []) (by omega) (by intro i _; simp [nullify, noMarks])
      (by intro i _ l hl; cases hl)
    refine ⟨p'.1, p'.2, hp, ?_⟩
    rw [he, List.nil_append]
    have := hcnt (by omega)
    have e : (2 * n - 0) / 2 = n := by omega
    rw [e] at this
    exact this

end Licant.Core
