/-
Need evaluation: lemmas and properties C22, C23, C28.
-/
import Verif.Core.Registry

set_option autoImplicit false

namespace Licant.Core
open Licant.Py Relation

variable {canon : String → String} {c : Reg} {updIf : Nat → Except Err Bool}

theorem Resolves.registered {n : String} {o : Nat} (h : Resolves canon c n o) : Registered c o := by
  rcases h with h | ⟨_, h⟩
  · exact ⟨_, h⟩
  · exact ⟨_, h⟩

theorem ObjDep.registered {o o' : Nat} (h : ObjDep canon c o o') : Registered c o' := by
  obtain ⟨d, _, h⟩ := h; exact h.registered

theorem registered_iff_mem {o : Nat} (hn : c.targets.keys.Nodup) :
    Registered c o ↔ o ∈ c.targets.map (·.2) := by
  constructor
  · rintro ⟨n, h⟩
    exact List.mem_map.2 ⟨_, Dict.mem_of_get h, rfl⟩
  · intro h
    obtain ⟨p, hp, rfl⟩ := List.mem_map.1 h
    exact ⟨p.1, Dict.get_of_mem hn hp⟩

theorem mapM_get {ds : List String} {l : List Nat} :
    ds.mapM (get canon c) = .ok l ↔ List.Forall₂ (Resolves canon c) ds l := by
  induction ds generalizing l with
  | nil =>
    simp only [List.mapM_nil, List.forall₂_nil_left_iff]
    constructor
    · intro h; cases h; rfl
    · rintro rfl; rfl
  | cons d ds ih =>
    simp only [List.mapM_cons, bind, Except.bind, List.forall₂_cons_left_iff]
    cases hg : get canon c d with
    | error e =>
      simp only [reduceCtorEq, false_iff]
      rintro ⟨o, l', hr, _⟩
      rw [get_ok.2 hr] at hg; cases hg
    | ok o =>
      simp only
      cases hm : ds.mapM (get canon c) with
      | error e =>
        simp only [reduceCtorEq, false_iff]
        rintro ⟨o, l', hr, hl, _⟩
        rw [ih.2 hl] at hm; cases hm
      | ok l' =>
        constructor
        · intro h; cases h
          exact ⟨o, l', get_ok.1 hg, ih.1 hm, rfl⟩
        · rintro ⟨o', l'', hr, hl, rfl⟩
          have h1 := get_ok.2 hr
          rw [hg] at h1; cases h1
          have h2 := ih.2 hl
          rw [hm] at h2; cases h2
          rfl

theorem mem_deplist {ds : List String} {l : List Nat} (h : List.Forall₂ (Resolves canon c) ds l)
    (o : Nat) : o ∈ l ↔ ∃ d ∈ ds, Resolves canon c d o := by
  induction h with
  | nil => simp
  | @cons d o' ds l hr _ ih =>
    simp only [List.mem_cons, exists_eq_or_imp, ih]
    constructor
    · rintro (rfl | h)
      · exact Or.inl hr
      · exact Or.inr h
    · rintro (h | h)
      · exact Or.inl (h.unique hr)
      · exact Or.inr h

theorem getDeplist_ok {cached cached' : Nat → Option (List Nat)} {o : Nat} {l : List Nat}
    (hc : Coherent canon c cached) (h : getDeplist canon c cached o = .ok (l, cached')) :
    (∀ o', o' ∈ l ↔ ObjDep canon c o o') ∧ Coherent canon c cached' := by
  unfold getDeplist at h
  split at h
  · rename_i hl
    cases h
    exact ⟨fun o' => mem_deplist (hc o l hl) o', hc⟩
  · simp only [bind, Except.bind] at h
    cases hm : (c.obj o).deps.mapM (get canon c) with
    | error e => rw [hm] at h; cases h
    | ok l' =>
      rw [hm] at h
      cases h
      refine ⟨fun o' => mem_deplist (mapM_get.1 hm) o', ?_⟩
      intro i l'' hi
      simp only at hi
      split at hi
      · rename_i e; subst e; cases hi; exact mapM_get.1 hm
      · exact hc i l'' hi

/-- no infinite chain below `o`, and everything reachable is updatable -/
def Good (canon : String → String) (c : Reg) (o : Nat) : Prop :=
  Acc (fun a b => ObjDep canon c b a) o ∧ ∀ o', ReflTransGen (ObjDep canon c) o o' → (c.obj o').upd = true

/-- what the evaluation establishes about `o` when it answers `b` -/
def Answer (canon : String → String) (c : Reg) (updIf : Nat → Except Err Bool) (o : Nat) (b : Bool) :
    Prop :=
  (b = true ↔ Stale canon c updIf o) ∧ (b = false → Good canon c o)

theorem request_succ (need : Nat → Option Bool) (fuel o : Nat) (cached : Nat → Option (List Nat)) :
    request canon c updIf need (fuel + 1) o cached =
      if (c.obj o).upd = false then .error .attribute
      else match need o with
      | some b => .ok (b, cached)
      | none =>
        match updIf o with
        | .error e => .error e
        | .ok true => .ok (true, cached)
        | .ok false =>
          match getDeplist canon c cached o with
          | .error e => .error e
          | .ok (l, cached) =>
            l.foldlM (fun (p : Bool × (Nat → Option (List Nat))) dep =>
              if p.1 then .ok p else request canon c updIf need fuel dep p.2) (false, cached) := by
  conv_lhs => unfold request
  simp only [bind, Except.bind]
  cases (c.obj o).upd with
  | false => rfl
  | true =>
    simp only [reduceCtorEq, if_false]
    cases need o with
    | some b => rfl
    | none =>
      cases updIf o with
      | error e => rfl
      | ok b =>
        cases b with
        | true => rfl
        | false =>
          simp only [Bool.false_eq_true, if_false]
          cases getDeplist canon c cached o with
          | error e => rfl
          | ok p => rfl

theorem request_ok {need : Nat → Option Bool}
    (hneed : ∀ o b, Registered c o → (c.obj o).upd = true → need o = some b → Answer canon c updIf o b)
    (fuel : Nat) : ∀ (o : Nat) (cached cached' : Nat → Option (List Nat)) (b : Bool),
    Registered c o → Coherent canon c cached →
    request canon c updIf need fuel o cached = .ok (b, cached') →
    (c.obj o).upd = true ∧ Coherent canon c cached' ∧ Answer canon c updIf o b := by
  induction fuel with
  | zero => intro o cached cached' b _ _ h; simp [request] at h
  | succ fuel ih =>
    intro o cached cached' b hreg hco h
    rw [request_succ] at h
    cases hu : (c.obj o).upd with
    | false => simp [hu] at h
    | true =>
      simp only [hu, reduceCtorEq, if_false] at h
      refine ⟨rfl, ?_⟩
      split at h
      · rename_i b' hb
        cases h
        exact ⟨hco, hneed o b hreg hu hb⟩
      · split at h
        · cases h
        · rename_i hup
          cases h
          exact ⟨hco, ⟨by simp only [true_iff]; exact ⟨o, .refl, hup⟩, by simp⟩⟩
        · rename_i hup
          split at h
          · cases h
          · rename_i l cached1 hd
            obtain ⟨hl, hco1⟩ := getDeplist_ok hco hd
            have loop : ∀ (ds : List Nat) (b0 : Bool) (ca ca' : Nat → Option (List Nat)) (b : Bool),
                (∀ x ∈ ds, ObjDep canon c o x) → Coherent canon c ca →
                (b0 = true → ∃ x, ObjDep canon c o x ∧ Stale canon c updIf x) →
                ds.foldlM (fun (p : Bool × (Nat → Option (List Nat))) dep =>
                  if p.1 then .ok p else request canon c updIf need fuel dep p.2) (b0, ca) =
                    .ok (b, ca') →
                Coherent canon c ca' ∧
                (b = true → ∃ x, ObjDep canon c o x ∧ Stale canon c updIf x) ∧
                (b = false → b0 = false ∧ ∀ x ∈ ds, ¬ Stale canon c updIf x ∧ Good canon c x) := by
              intro ds
              induction ds with
              | nil =>
                intro b0 ca ca' b _ hca hb0 h
                simp only [List.foldlM_nil] at h
                cases h
                exact ⟨hca, hb0, fun h => ⟨h, by simp⟩⟩
              | cons d ds ihd =>
                intro b0 ca ca' b hds hca hb0 h
                simp only [List.foldlM_cons] at h
                have hds' : ∀ x ∈ ds, ObjDep canon c o x := fun x hx => hds x (by simp [hx])
                have hdd := hds d (by simp)
                cases b0 with
                | true =>
                  simp only [if_true] at h
                  obtain ⟨h1, h2, h3⟩ := ihd true ca ca' b hds' hca hb0 h
                  exact ⟨h1, h2, fun hb => absurd (h3 hb).1 (by simp)⟩
                | false =>
                  simp only [Bool.false_eq_true, if_false] at h
                  cases hq : request canon c updIf need fuel d ca with
                  | error e => rw [hq] at h; cases h
                  | ok p =>
                    obtain ⟨b1, ca1⟩ := p
                    rw [hq] at h
                    obtain ⟨_, hca1, ha, hg⟩ := ih d ca ca1 b1 hdd.registered hca hq
                    obtain ⟨h1, h2, h3⟩ := ihd b1 ca1 ca' b hds' hca1
                      (fun hb => ⟨d, hdd, ha.1 hb⟩) h
                    refine ⟨h1, h2, fun hb => ⟨rfl, ?_⟩⟩
                    obtain ⟨hb1, hx⟩ := h3 hb
                    intro x hx'
                    rcases List.mem_cons.1 hx' with rfl | hx'
                    · exact ⟨fun hs => absurd (ha.2 hs) (by simp [hb1]), hg hb1⟩
                    · exact hx x hx'
            obtain ⟨h1, h2, h3⟩ := loop l false cached1 cached' b (fun x hx => (hl x).1 hx) hco1
              (by simp) h
            refine ⟨h1, ⟨fun hb => ?_, ?_⟩, fun hb => ?_⟩
            · obtain ⟨x, hx, y, hy, hyu⟩ := h2 hb
              exact ⟨y, .head hx hy, hyu⟩
            · rintro ⟨y, hy, hyu⟩
              by_contra hb
              have hb' : b = false := by simpa using hb
              rcases ReflTransGen.cases_head hy with rfl | ⟨x, hx, hxy⟩
              · rw [hup] at hyu; cases hyu
              · exact ((h3 hb').2 x ((hl x).2 hx)).1 ⟨y, hxy, hyu⟩
            · constructor
              · constructor
                intro x hx
                exact ((h3 hb).2 x ((hl x).2 hx)).2.1
              · intro y hy
                rcases ReflTransGen.cases_head hy with rfl | ⟨x, hx, hxy⟩
                · exact hu
                · exact ((h3 hb).2 x ((hl x).2 hx)).2.2 y hxy

theorem updateNeeds_ok {lim : Nat} {m m' : Marks} (hn : c.targets.keys.Nodup)
    (hco : Coherent canon c m.cached)
    (h : updateNeeds canon c updIf lim m = .ok m') :
    Coherent canon c m'.cached ∧
    ∀ o, Registered c o → (c.obj o).upd = true →
      ∃ b, m'.need o = some b ∧ Answer canon c updIf o b := by
  unfold updateNeeds at h
  have loop : ∀ (l : List Nat) (m m' : Marks), (∀ o ∈ l, Registered c o) →
      Coherent canon c m.cached →
      (∀ o b, Registered c o → (c.obj o).upd = true → m.need o = some b → Answer canon c updIf o b) →
      l.foldlM (evaluateOne canon c updIf lim) m = .ok m' →
      Coherent canon c m'.cached ∧
      (∀ o b, Registered c o → (c.obj o).upd = true → m'.need o = some b → Answer canon c updIf o b) ∧
      (∀ o, m.need o ≠ none → m'.need o ≠ none) ∧
      (∀ o ∈ l, (c.obj o).upd = true → m'.need o ≠ none) := by
    intro l
    induction l with
    | nil =>
      intro m m' _ hc hn h
      simp only [List.foldlM_nil] at h; cases h
      exact ⟨hc, hn, fun _ h => h, by simp⟩
    | cons o l ih =>
      intro m m' hl hc hn h
      simp only [List.foldlM_cons] at h
      cases he : evaluateOne canon c updIf lim m o with
      | error e => rw [he] at h; cases h
      | ok m1 =>
        rw [he] at h
        have hl' : ∀ o ∈ l, Registered c o := fun x hx => hl x (by simp [hx])
        unfold evaluateOne at he
        split at he
        · rename_i hu
          simp only [bind, Except.bind] at he
          split at he
          · cases he
          · rename_i p hq
            obtain ⟨b, ca⟩ := p
            cases he
            obtain ⟨_, hca, ha⟩ := request_ok hn lim o m.cached ca b (hl o (by simp)) hc hq
            obtain ⟨h1, h2, h3, h4⟩ := ih _ m' hl' hca (by
              intro o' b' hr' hu' hb'
              simp only at hb'
              split at hb'
              · rename_i e; subst e; cases hb'; exact ha
              · exact hn o' b' hr' hu' hb') h
            refine ⟨h1, h2, fun o' ho' => h3 o' (by simp only; split <;> simp_all), ?_⟩
            intro o' ho' hu'
            rcases List.mem_cons.1 ho' with rfl | ho'
            · exact h3 _ (by simp)
            · exact h4 o' ho' hu'
        · rename_i hu
          cases he
          obtain ⟨h1, h2, h3, h4⟩ := ih m m' hl' hc hn h
          refine ⟨h1, h2, h3, ?_⟩
          intro o' ho' hu'
          rcases List.mem_cons.1 ho' with rfl | ho'
          · exact absurd hu' hu
          · exact h4 o' ho' hu'
  obtain ⟨h1, h2, _, h4⟩ := loop _ (nullify c m) m'
    (fun o ho => (registered_iff_mem hn).2 ho) hco (by
      intro o b hr hu hb
      simp only [nullify] at hb
      rw [if_pos ⟨(registered_iff_mem hn).1 hr, hu⟩] at hb
      cases hb) h
  refine ⟨h1, fun o hr hu => ?_⟩
  have := h4 o ((registered_iff_mem hn).1 hr) hu
  obtain ⟨b, hb⟩ := Option.ne_none_iff_exists'.1 this
  exact ⟨b, hb, h2 o b hr hu hb⟩

/-- the keys of a reachable registry are distinct -/
theorem nodup_runOps (ops : List Op) : ∀ c : Reg, c.targets.keys.Nodup →
    (runOps canon c ops).targets.keys.Nodup := by
  induction ops with
  | nil => intro c h; exact h
  | cons op ops ih =>
    intro c h
    cases op with
    | add ob => exact ih _ (Dict.nodup_keys_set h _ _)
    | has n =>
      apply ih
      unfold has
      split
      · exact h
      · split
        · exact Dict.nodup_keys_set h _ _
        · exact h

/-! ### C22 -/

/-- C22: after the evaluation every registered updatable target is marked, and it is marked for
update iff its own `update_if`, or that of a target reachable from it, is true.
(`Coherent` holds for a core on which nothing was evaluated yet, and the conclusion includes that
the evaluation preserves it; see C71 for registrations made in between.) -/
theorem C22_need_iff_stale (ops : List Op) (lim : Nat) (m m' : Marks)
    (hc : Coherent canon (runOps canon Reg.empty ops) m.cached)
    (h : updateNeeds canon (runOps canon Reg.empty ops) updIf lim m = .ok m') :
    let c := runOps canon Reg.empty ops
    Coherent canon c m'.cached ∧
    ∀ o, Registered c o → (c.obj o).upd = true →
      (m'.need o = some true ↔ Stale canon c updIf o) ∧
      (m'.need o = some false ↔ ¬ Stale canon c updIf o) := by
  obtain ⟨h1, h2⟩ := updateNeeds_ok (nodup_runOps ops _ (by simp [Reg.empty, Dict.keys])) hc h
  refine ⟨h1, fun o hr hu => ?_⟩
  obtain ⟨b, hb, ha, _⟩ := h2 o hr hu
  rw [hb, ← ha]
  cases b <;> simp

/-- the marks of freshly created objects -/
def noMarks : Marks := ⟨fun _ => none, fun _ => none⟩

theorem coherent_noMarks : Coherent canon c noMarks.cached := by
  intro o l h; cases h

/-- a chain a <- b <- c where only b is stale -/
def chainOps : List Op :=
  [.add ⟨"c", ["b"], true, [], "x"⟩, .add ⟨"b", ["a"], true, [], "x"⟩, .add ⟨"a", [], true, [], "x"⟩]

def chainUpd : Nat → Except Err Bool := fun o => .ok (o == 1)

/-- Non-vacuity: the evaluation returns, with the expected marks. -/
example : (updateNeeds id (runOps id Reg.empty chainOps) chainUpd 10 noMarks).map
    (fun m => (m.need 0, m.need 1, m.need 2)) = .ok (some true, some true, some false) := by
  decide +kernel

/-! ### C23, C28 -/

theorem chain_bound_pred {lim : Nat} {o x : Nat}
    (hb : ∀ l : List Nat, (o :: l).IsChain (ObjDep canon c) → (o :: l).length ≤ lim + 1)
    (hx : ObjDep canon c o x) :
    ∀ l : List Nat, (x :: l).IsChain (ObjDep canon c) → (x :: l).length ≤ lim := by
  intro l hl
  have := hb (x :: l) (List.isChain_cons_cons.2 ⟨hx, hl⟩)
  simp only [List.length_cons] at this ⊢
  omega

theorem getDeplist_total {cached : Nat → Option (List Nat)} {o : Nat}
    (hr : ∀ d ∈ (c.obj o).deps, ∃ o', Resolves canon c d o') :
    ∃ p, getDeplist canon c cached o = .ok p := by
  unfold getDeplist
  split
  · exact ⟨_, rfl⟩
  · have : ∀ ds : List String, (∀ d ∈ ds, ∃ o', Resolves canon c d o') →
        ∃ l, ds.mapM (get canon c) = .ok l := by
      intro ds
      induction ds with
      | nil => intro _; exact ⟨[], rfl⟩
      | cons d ds ih =>
        intro h
        obtain ⟨o', ho'⟩ := h d (by simp)
        obtain ⟨l, hl⟩ := ih (fun x hx => h x (by simp [hx]))
        refine ⟨o' :: l, ?_⟩
        simp only [List.mapM_cons, bind, Except.bind, get_ok.2 ho', hl]; rfl
    obtain ⟨l, hl⟩ := this _ hr
    simp only [bind, Except.bind, hl]
    exact ⟨_, rfl⟩

/-- In a fully registered core with total `update_if`s the only failures of the evaluation are
`AttributeError` (only if a plain target is reachable) and `RecursionError` (only if some chain is
longer than the limit). -/
theorem request_total {need : Nat → Option Bool} (hfr : FullyRegistered canon c)
    (hup : ∀ o, Registered c o → (c.obj o).upd = true → ∃ b, updIf o = .ok b) (fuel : Nat) :
    ∀ (o : Nat) (cached : Nat → Option (List Nat)), Registered c o → Coherent canon c cached →
    (∃ b ca, request canon c updIf need fuel o cached = .ok (b, ca) ∧ Coherent canon c ca) ∨
    (request canon c updIf need fuel o cached = .error .attribute ∧
      ∃ o', ReflTransGen (ObjDep canon c) o o' ∧ (c.obj o').upd = false) ∨
    (request canon c updIf need fuel o cached = .error .recursion ∧
      ∃ l : List Nat, (o :: l).IsChain (ObjDep canon c) ∧ fuel < (o :: l).length) := by
  induction fuel with
  | zero =>
    intro o cached _ _
    exact Or.inr (Or.inr ⟨rfl, [], by simp, by simp⟩)
  | succ fuel ih =>
    intro o cached hreg hco
    rw [request_succ]
    cases hu : (c.obj o).upd with
    | false => exact Or.inr (Or.inl ⟨by simp, o, .refl, hu⟩)
    | true =>
      simp only [reduceCtorEq, if_false]
      cases need o with
      | some b => exact Or.inl ⟨b, cached, rfl, hco⟩
      | none =>
        obtain ⟨b, hb⟩ := hup o hreg hu
        simp only [hb]
        cases b with
        | true => exact Or.inl ⟨true, cached, rfl, hco⟩
        | false =>
          obtain ⟨⟨l, ca⟩, hp⟩ := getDeplist_total (cached := cached) (hfr o hreg)
          obtain ⟨hl, hca⟩ := getDeplist_ok hco hp
          simp only [hp]
          have loop : ∀ (ds : List Nat) (b0 : Bool) (ca : Nat → Option (List Nat)),
              (∀ x ∈ ds, ObjDep canon c o x) → Coherent canon c ca →
              let r := ds.foldlM (fun (p : Bool × (Nat → Option (List Nat))) dep =>
                  if p.1 then .ok p else request canon c updIf need fuel dep p.2) (b0, ca)
              (∃ b ca', r = .ok (b, ca') ∧ Coherent canon c ca') ∨
              (r = .error .attribute ∧
                ∃ o', ReflTransGen (ObjDep canon c) o o' ∧ (c.obj o').upd = false) ∨
              (r = .error .recursion ∧
                ∃ l : List Nat, (o :: l).IsChain (ObjDep canon c) ∧ fuel + 1 < (o :: l).length) := by
            intro ds
            induction ds with
            | nil => intro b0 ca _ hca; exact Or.inl ⟨b0, ca, rfl, hca⟩
            | cons d ds ihd =>
              intro b0 ca hds hca
              have hds' : ∀ x ∈ ds, ObjDep canon c o x := fun x hx => hds x (by simp [hx])
              have hdd := hds d (by simp)
              simp only [List.foldlM_cons]
              cases b0 with
              | true =>
                simp only [if_true]
                exact ihd true ca hds' hca
              | false =>
                simp only [Bool.false_eq_true, if_false]
                rcases ih d ca hdd.registered hca with ⟨b1, ca1, h1, hca1⟩ | ⟨h1, o', ho', hpl⟩ |
                    ⟨h1, l', hl', hlen⟩
                · rw [h1]
                  exact ihd b1 ca1 hds' hca1
                · rw [h1]
                  exact Or.inr (Or.inl ⟨rfl, o', .head hdd ho', hpl⟩)
                · rw [h1]
                  exact Or.inr (Or.inr ⟨rfl, d :: l', List.isChain_cons_cons.2 ⟨hdd, hl'⟩,
                    by simp at hlen ⊢; omega⟩)
          exact loop l false ca (fun x hx => (hl x).1 hx) hca

theorem updateNeeds_total {lim : Nat} {m : Marks} (hn : c.targets.keys.Nodup)
    (hco : Coherent canon c m.cached)
    (hfr : FullyRegistered canon c) (hup : ∀ o, Registered c o → (c.obj o).upd = true → ∃ b, updIf o = .ok b) :
    (∃ m', updateNeeds canon c updIf lim m = .ok m') ∨
    (updateNeeds canon c updIf lim m = .error .attribute ∧
      ∃ o, Registered c o ∧ (c.obj o).upd = false) ∨
    (updateNeeds canon c updIf lim m = .error .recursion ∧ ¬ DepthBound canon c lim) := by
  unfold updateNeeds
  have loop : ∀ (l : List Nat) (m : Marks), (∀ o ∈ l, Registered c o) →
      Coherent canon c m.cached →
      (∃ m', l.foldlM (evaluateOne canon c updIf lim) m = .ok m') ∨
      (l.foldlM (evaluateOne canon c updIf lim) m = .error .attribute ∧
        ∃ o, Registered c o ∧ (c.obj o).upd = false) ∨
      (l.foldlM (evaluateOne canon c updIf lim) m = .error .recursion ∧ ¬ DepthBound canon c lim) := by
    intro l
    induction l with
    | nil => intro m _ _; exact Or.inl ⟨m, rfl⟩
    | cons o l ih =>
      intro m hl hc
      have hl' : ∀ o ∈ l, Registered c o := fun x hx => hl x (by simp [hx])
      simp only [List.foldlM_cons]
      have hreg := hl o (by simp)
      by_cases hu : (c.obj o).upd = true
      · rcases request_total (need := m.need) hfr hup lim o m.cached hreg hc with
          ⟨b, ca, h1, hca⟩ | ⟨h1, o', ho', hpl⟩ | ⟨h1, l', hl', hlen⟩
        · have : evaluateOne canon c updIf lim m o =
              .ok { need := fun i => if i = o then some b else m.need i, cached := ca } := by
            simp only [evaluateOne, hu, if_true, bind, Except.bind, h1]
          rw [this]
          exact ih _ hl' hca
        · have : evaluateOne canon c updIf lim m o = .error .attribute := by
            simp only [evaluateOne, hu, if_true, bind, Except.bind, h1]
          rw [this]
          refine Or.inr (Or.inl ⟨rfl, o', ?_, hpl⟩)
          rcases ReflTransGen.cases_tail ho' with rfl | ⟨x, _, hx⟩
          · exact hreg
          · exact hx.registered
        · have : evaluateOne canon c updIf lim m o = .error .recursion := by
            simp only [evaluateOne, hu, if_true, bind, Except.bind, h1]
          rw [this]
          refine Or.inr (Or.inr ⟨rfl, fun hdb => ?_⟩)
          have hall : ∀ (l : List Nat) (o : Nat), Registered c o → (o :: l).IsChain (ObjDep canon c) →
              ∀ x ∈ o :: l, Registered c x := by
            intro l
            induction l with
            | nil => intro o ho _ x hx; simp at hx; subst hx; exact ho
            | cons y l ih =>
              intro o ho hch x hx
              rw [List.isChain_cons_cons] at hch
              rcases List.mem_cons.1 hx with rfl | hx
              · exact ho
              · exact ih y hch.1.registered hch.2 x hx
          have := hdb (o :: l') (hall l' o hreg hl') hl'
          omega
      · have : evaluateOne canon c updIf lim m o = .ok m := by
          simp only [evaluateOne, hu, Bool.false_eq_true, if_false]
        rw [this]
        exact ih m hl' hc
  exact loop _ _ (fun o ho => (registered_iff_mem hn).2 ho) hco

/-- An acyclic registry with at most `lim` registered names has no chain longer than `lim`. -/
theorem depthBound_of_acyclic {lim : Nat} (ha : Acyclic canon c) (hl : c.targets.length ≤ lim) :
    DepthBound canon c lim := by
  intro l hreg hch
  have htr : l.Pairwise (TransGen (ObjDep canon c)) := by
    have : l.IsChain (TransGen (ObjDep canon c)) := hch.imp fun _ _ h => TransGen.single h
    exact this.pairwise
  have hnd : l.Nodup := by
    refine List.Pairwise.imp ?_ htr
    intro a b h e
    subst e
    exact ha a h
  have hsub : ∀ x ∈ l, x ∈ c.targets.map (·.2) := by
    intro x hx
    obtain ⟨n, h⟩ := hreg x hx
    exact List.mem_map.2 ⟨_, Dict.mem_of_get h, rfl⟩
  have := (hnd.subperm hsub).length_le
  simp at this
  omega

theorem not_acc_of_cycle {o : Nat} (h : TransGen (ObjDep canon c) o o) :
    ¬ Acc (fun a b => ObjDep canon c b a) o := by
  intro hacc
  have hacc' : Acc (TransGen (fun a b => ObjDep canon c b a)) o := hacc.transGen
  have h' : TransGen (fun a b => ObjDep canon c b a) o o := by
    rw [← transGen_swap] at h
    exact h
  have : ∀ x, Acc (TransGen (fun a b => ObjDep canon c b a)) x →
      ¬ TransGen (fun a b => ObjDep canon c b a) x x := by
    intro x hx
    induction hx with
    | intro x _ ih => intro h; exact ih x h h
  exact this o hacc' h'

/-- C23: for a fully registered, updatable registry without chains longer than the recursion
limit (in particular: acyclic with at most `lim` names) the evaluation returns. -/
theorem C23_terminates (ops : List Op) (lim : Nat) (m : Marks)
    (hc : Coherent canon (runOps canon Reg.empty ops) m.cached)
    (hfr : FullyRegistered canon (runOps canon Reg.empty ops))
    (hupd : ∀ o, Registered (runOps canon Reg.empty ops) o →
      ((runOps canon Reg.empty ops).obj o).upd = true)
    (hup : ∀ o, Registered (runOps canon Reg.empty ops) o →
      ((runOps canon Reg.empty ops).obj o).upd = true → ∃ b, updIf o = .ok b)
    (hd : DepthBound canon (runOps canon Reg.empty ops) lim ∨
      (Acyclic canon (runOps canon Reg.empty ops) ∧
        (runOps canon Reg.empty ops).targets.length ≤ lim)) :
    ∃ m', updateNeeds canon (runOps canon Reg.empty ops) updIf lim m = .ok m' := by
  rcases updateNeeds_total (lim := lim) (nodup_runOps (canon := canon) ops _ (by simp [Reg.empty, Dict.keys]))
    hc hfr hup with h | ⟨_, o, ho, hp⟩ | ⟨_, h⟩
  · exact h
  · rw [hupd o ho] at hp; cases hp
  · rcases hd with hd | ⟨ha, hl⟩
    · exact absurd hd h
    · exact absurd (depthBound_of_acyclic ha hl) h

/-- C23: if some registered updatable target lies on a cycle and nothing in its closure is stale,
no evaluation returns, whatever the recursion limit; when moreover everything is registered and
updatable, it ends in `RecursionError`. -/
theorem C23_cycle (ops : List Op) (lim : Nat) (m : Marks) (o : Nat)
    (hc : Coherent canon (runOps canon Reg.empty ops) m.cached)
    (ho : Registered (runOps canon Reg.empty ops) o)
    (hou : ((runOps canon Reg.empty ops).obj o).upd = true)
    (hcyc : TransGen (ObjDep canon (runOps canon Reg.empty ops)) o o)
    (hs : ¬ Stale canon (runOps canon Reg.empty ops) updIf o) :
    (∀ m', updateNeeds canon (runOps canon Reg.empty ops) updIf lim m ≠ .ok m') ∧
    (FullyRegistered canon (runOps canon Reg.empty ops) →
      (∀ o, Registered (runOps canon Reg.empty ops) o →
        ((runOps canon Reg.empty ops).obj o).upd = true) →
      (∀ o, Registered (runOps canon Reg.empty ops) o →
      ((runOps canon Reg.empty ops).obj o).upd = true → ∃ b, updIf o = .ok b) →
      updateNeeds canon (runOps canon Reg.empty ops) updIf lim m = .error .recursion) := by
  have hn := nodup_runOps (canon := canon) ops Reg.empty (by simp [Reg.empty, Dict.keys])
  have h1 : ∀ m', updateNeeds canon (runOps canon Reg.empty ops) updIf lim m ≠ .ok m' := by
    intro m' h
    obtain ⟨_, h2⟩ := updateNeeds_ok hn hc h
    obtain ⟨b, _, ha, hg⟩ := h2 o ho hou
    cases b with
    | true => exact hs (ha.1 rfl)
    | false => exact not_acc_of_cycle hcyc (hg rfl).1
  refine ⟨h1, fun hfr hupd hup => ?_⟩
  rcases updateNeeds_total (lim := lim) hn hc hfr hup with ⟨m', h⟩ | ⟨_, o, ho, hp⟩ | ⟨h, _⟩
  · exact absurd h (h1 m')
  · rw [hupd o ho] at hp; cases hp
  · exact h

/-- Non-vacuity: a two-cycle of updatable targets. -/
def cycleOps : List Op := [.add ⟨"a", ["b"], true, [], "x"⟩, .add ⟨"b", ["a"], true, [], "x"⟩]

theorem cycle_dep : TransGen (ObjDep id (runOps id Reg.empty cycleOps)) 0 0 :=
  .head (b := 1) ⟨"b", by decide, Or.inl rfl⟩ (.single ⟨"a", by decide, Or.inl rfl⟩)

example (lim : Nat) : ∀ m', updateNeeds id (runOps id Reg.empty cycleOps) (fun _ => .ok false) lim
    noMarks ≠ .ok m' :=
  (C23_cycle cycleOps lim noMarks 0 coherent_noMarks ⟨"a", rfl⟩ rfl cycle_dep
    (by rintro ⟨_, _, h⟩; cases h)).1

/-- C28 is violated: a core in which a registered updatable target that is not stale can reach a
plain target never finishes the evaluation, so no action of any target of that core works; if
everything is registered and no chain exceeds the recursion limit, it is an `AttributeError`. -/
theorem C28_violated (ops : List Op) (lim : Nat) (m : Marks) (o o' : Nat)
    (hc : Coherent canon (runOps canon Reg.empty ops) m.cached)
    (ho : Registered (runOps canon Reg.empty ops) o)
    (hou : ((runOps canon Reg.empty ops).obj o).upd = true)
    (hr : ReflTransGen (ObjDep canon (runOps canon Reg.empty ops)) o o')
    (hpl : ((runOps canon Reg.empty ops).obj o').upd = false)
    (hs : ¬ Stale canon (runOps canon Reg.empty ops) updIf o) :
    (∀ m', updateNeeds canon (runOps canon Reg.empty ops) updIf lim m ≠ .ok m') ∧
    (FullyRegistered canon (runOps canon Reg.empty ops) →
      DepthBound canon (runOps canon Reg.empty ops) lim →
      (∀ o, Registered (runOps canon Reg.empty ops) o →
      ((runOps canon Reg.empty ops).obj o).upd = true → ∃ b, updIf o = .ok b) →
      updateNeeds canon (runOps canon Reg.empty ops) updIf lim m = .error .attribute) := by
  have hn := nodup_runOps (canon := canon) ops Reg.empty (by simp [Reg.empty, Dict.keys])
  have h1 : ∀ m', updateNeeds canon (runOps canon Reg.empty ops) updIf lim m ≠ .ok m' := by
    intro m' h
    obtain ⟨_, h2⟩ := updateNeeds_ok hn hc h
    obtain ⟨b, _, ha, hg⟩ := h2 o ho hou
    cases b with
    | true => exact hs (ha.1 rfl)
    | false =>
      have := (hg rfl).2 o' hr
      rw [hpl] at this; cases this
  refine ⟨h1, fun hfr hd hup => ?_⟩
  rcases updateNeeds_total (lim := lim) hn hc hfr hup with ⟨m', h⟩ | ⟨h, _⟩ | ⟨_, h⟩
  · exact absurd h (h1 m')
  · exact h
  · exact absurd hd h

/-- the hypotheses are met: `u` (updatable, not stale) depends on the plain target `p` -/
def plainOps : List Op := [.add ⟨"p", [], false, [], "action"⟩, .add ⟨"u", ["p"], true, [], "x"⟩]

theorem C28_violated_witness : ∀ lim, 2 ≤ lim →
    updateNeeds id (runOps id Reg.empty plainOps) (fun _ => .ok false) lim noMarks =
      .error .attribute := by
  intro lim hl
  obtain ⟨k, rfl⟩ := Nat.exists_eq_add_of_le hl
  rw [Nat.add_comm]
  rfl

example (lim : Nat) :
    ∀ m', updateNeeds id (runOps id Reg.empty plainOps) (fun _ => .ok false) lim noMarks ≠ .ok m' :=
  (C28_violated plainOps lim noMarks 1 0 coherent_noMarks ⟨"u", rfl⟩ rfl
    (.single ⟨"p", by decide, Or.inl rfl⟩) rfl (by rintro ⟨_, _, h⟩; cases h)).1

theorem updateNeeds_returns {lim : Nat} {m : Marks} (hn : c.targets.keys.Nodup) (hc : Coherent canon c m.cached)
    (hfr : FullyRegistered canon c)
    (hupd : ∀ o o', Registered c o → (c.obj o).upd = true → ObjDep canon c o o' → (c.obj o').upd = true)
    (hup : ∀ o, Registered c o → (c.obj o).upd = true → ∃ b, updIf o = .ok b) (hd : DepthBound canon c lim) :
    ∃ m', updateNeeds canon c updIf lim m = .ok m' := by
  have hreach : ∀ o o', Registered c o → (c.obj o).upd = true →
      ReflTransGen (ObjDep canon c) o o' → (c.obj o').upd = true := by
    intro o o' hreg hu h
    have : Registered c o' ∧ (c.obj o').upd = true := by
      induction h with
      | refl => exact ⟨hreg, hu⟩
      | tail _ hyz ih => exact ⟨hyz.registered, hupd _ _ ih.1 ih.2 hyz⟩
    exact this.2
  unfold updateNeeds
  have loop : ∀ (l : List Nat) (m : Marks), (∀ o ∈ l, Registered c o) →
      Coherent canon c m.cached →
      ∃ m', l.foldlM (evaluateOne canon c updIf lim) m = .ok m' := by
    intro l
    induction l with
    | nil => intro m _ _; exact ⟨m, rfl⟩
    | cons o l ih =>
      intro m hl hc
      have hl' : ∀ o ∈ l, Registered c o := fun x hx => hl x (by simp [hx])
      simp only [List.foldlM_cons]
      have hreg := hl o (by simp)
      by_cases hu : (c.obj o).upd = true
      · rcases request_total (need := m.need) hfr hup lim o m.cached hreg hc with
          ⟨b, ca, h1, hca⟩ | ⟨h1, o', ho', hpl⟩ | ⟨h1, l', hl', hlen⟩
        · have : evaluateOne canon c updIf lim m o =
              .ok { need := fun i => if i = o then some b else m.need i, cached := ca } := by
            simp only [evaluateOne, hu, if_true, bind, Except.bind, h1]
          rw [this]
          exact ih _ hl' hca
        · rw [hreach o o' hreg hu ho'] at hpl; cases hpl
        · exfalso
          have hall : ∀ (l : List Nat) (o : Nat), Registered c o → (o :: l).IsChain (ObjDep canon c) →
              ∀ x ∈ o :: l, Registered c x := by
            intro l
            induction l with
            | nil => intro o ho _ x hx; simp at hx; subst hx; exact ho
            | cons y l ih =>
              intro o ho hch x hx
              rw [List.isChain_cons_cons] at hch
              rcases List.mem_cons.1 hx with rfl | hx
              · exact ho
              · exact ih y hch.1.registered hch.2 x hx
          have := hd (o :: l') (hall l' o hreg hl') hl'
          omega
      · have : evaluateOne canon c updIf lim m o = .ok m := by
          simp only [evaluateOne, hu, Bool.false_eq_true, if_false]
        rw [this]
        exact ih m hl' hc
  exact loop _ _ (fun o ho => (registered_iff_mem hn).2 ho) hc

/-- C28, what holds: if everything reachable from the registered updatable targets is updatable
(registered plain targets that nobody updatable depends on do no harm), the evaluation returns. -/
theorem C28_partial (ops : List Op) (lim : Nat) (m : Marks)
    (hc : Coherent canon (runOps canon Reg.empty ops) m.cached)
    (hfr : FullyRegistered canon (runOps canon Reg.empty ops))
    (hupd : ∀ o o', Registered (runOps canon Reg.empty ops) o →
      ((runOps canon Reg.empty ops).obj o).upd = true →
      ObjDep canon (runOps canon Reg.empty ops) o o' →
      ((runOps canon Reg.empty ops).obj o').upd = true)
    (hup : ∀ o, Registered (runOps canon Reg.empty ops) o →
      ((runOps canon Reg.empty ops).obj o).upd = true → ∃ b, updIf o = .ok b)
    (hd : DepthBound canon (runOps canon Reg.empty ops) lim) :
    ∃ m', updateNeeds canon (runOps canon Reg.empty ops) updIf lim m = .ok m' :=
  updateNeeds_returns (nodup_runOps (canon := canon) ops Reg.empty (by simp [Reg.empty, Dict.keys])) hc hfr hupd hup hd

end Licant.Core
