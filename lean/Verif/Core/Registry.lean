/-
Registry lookups and the dependency closure: lemmas and properties C17-C21.
-/
import Verif.Core.Spec
import Mathlib.Data.List.Perm.Subperm
import Mathlib.Data.List.Nodup

set_option autoImplicit false

namespace Licant.Core
open Licant.Py Relation

variable {canon : String → String} {c : Reg}

theorem get_ok {n : String} {o : Nat} : get canon c n = .ok o ↔ Resolves canon c n o := by
  unfold get Resolves
  cases h : c.targets.get n with
  | some o' => simp
  | none =>
    cases h' : c.targets.get (canon n) with
    | some o' => simp
    | none => simp

theorem get_err {n : String} : (∀ o, ¬ Resolves canon c n o) ↔ get canon c n = .error .exit := by
  constructor
  · intro h
    cases hg : get canon c n with
    | ok o => exact absurd (get_ok.1 hg) (h o)
    | error e =>
      unfold get at hg
      split at hg
      · cases hg
      · split at hg <;> cases hg; rfl
  · intro h o ho
    rw [get_ok.2 ho] at h; cases h

theorem Resolves.unique {n : String} {o o' : Nat} (h : Resolves canon c n o)
    (h' : Resolves canon c n o') : o = o' := by
  have := get_ok.2 h
  rw [get_ok.2 h'] at this; cases this; rfl

/-! ### C19 -/

/-- C19: the object registered under exactly `n` if there is one; otherwise the one registered
under the canonical path; otherwise the program terminates.  `has` says whether `get` succeeds. -/
theorem C19_lookup (canon : String → String) (c : Reg) (n : String) :
    (∀ o, c.targets.get n = some o → get canon c n = .ok o) ∧
    (∀ o, c.targets.get n = none → c.targets.get (canon n) = some o → get canon c n = .ok o) ∧
    (c.targets.get n = none → c.targets.get (canon n) = none → get canon c n = .error .exit) ∧
    ((has canon c n).2 = true ↔ ∃ o, get canon c n = .ok o) := by
  refine ⟨fun o h => get_ok.2 (Or.inl h), fun o h h' => get_ok.2 (Or.inr ⟨h, h'⟩), ?_, ?_⟩
  · intro h h'; unfold get; rw [h, h']
  · unfold has get
    cases h : c.targets.get n with
    | some o => simp [Dict.has, h]
    | none =>
      cases h' : c.targets.get (canon n) with
      | some o => simp [Dict.has, h]
      | none => simp [Dict.has, h]

/-! ### C20 -/

theorem has_get (hc : Idempotent canon) (n m : String) :
    get canon (has canon c n).1 m = get canon c m := by
  unfold has
  split
  · rfl
  · rename_i hn
    have hn' : c.targets.get n = none := by
      simpa [Dict.has] using hn
    split
    · rename_i o ho
      unfold get
      simp only [Dict.get_set]
      by_cases hm : n = m
      · subst hm; simp [hn', ho]
      · simp only [hm, if_false]
        cases h1 : c.targets.get m with
        | some o' => rfl
        | none =>
          by_cases hcm : n = canon m
          · exfalso
            have : canon n = n := by rw [hcm]; exact hc m
            rw [this, hn'] at ho; cases ho
          · simp [hcm]
    · rfl

/-- C20: however often `has` is asked, later `get` and `has` calls give the same results. -/
theorem C20_has_pure (hc : Idempotent canon) (c : Reg) (asked : List String) (m : String) :
    get canon (runOps canon c (asked.map .has)) m = get canon c m ∧
    (has canon (runOps canon c (asked.map .has)) m).2 = (has canon c m).2 := by
  have h1 : ∀ (l : List String) (c : Reg),
      get canon (runOps canon c (l.map .has)) m = get canon c m := by
    intro l
    induction l with
    | nil => intro c; rfl
    | cons n l ih =>
      intro c
      simp only [List.map_cons, runOps]
      rw [ih, has_get hc]
  refine ⟨h1 asked c, ?_⟩
  rw [Bool.eq_iff_iff, (C19_lookup canon _ m).2.2.2, (C19_lookup canon _ m).2.2.2, h1]

/-- a toy canonical path function: "./x" stands for "x" -/
def toyCanon (s : String) : String := if s = "./f" then "f" else s

theorem toyCanon_idem : Idempotent toyCanon := by
  intro n; unfold toyCanon; split <;> simp_all

def fObj (deps : List String) : Obj := ⟨"f", deps, true, [], "update"⟩

example : Idempotent toyCanon ∧
    (has toyCanon (add Reg.empty (fObj [])).1 "./f").1.targets ≠
      (add Reg.empty (fObj [])).1.targets :=
  ⟨toyCanon_idem, by decide⟩

/-! ### C21 -/

/-- C21 is violated: after `add`, `has("./f")`, `add` again, "./f" still resolves to the first
object although its canonical path is the name of the second. -/
theorem C21_violated : ∃ (canon : String → String) (ops : List Op) (ob : Obj) (n : String),
    Idempotent canon ∧ canon ob.tgt = ob.tgt ∧ canon n = ob.tgt ∧
    get canon (add (runOps canon Reg.empty ops) ob).1 n ≠
      .ok (add (runOps canon Reg.empty ops) ob).2 := by
  refine ⟨toyCanon, [.add (fObj []), .has "./f"], fObj ["g"], "./f", toyCanon_idem, by decide,
    by decide, ?_⟩
  intro h
  have : get toyCanon (add (runOps toyCanon Reg.empty [.add (fObj []), .has "./f"]) (fObj ["g"])).1
      "./f" = .ok 0 := rfl
  rw [this] at h
  cases h

/-- C21, what holds (exactly): a spelling `n` of the new target's name resolves to the new target
iff `n` is that name or nothing is stored under `n` itself.  In particular the name itself and
every spelling never used before resolve to the new target. -/
theorem C21_partial (c : Reg) (ob : Obj) (n : String) (hn : canon n = ob.tgt)
    (hfresh : ∀ k o, c.targets.get k = some o → o < c.next) :
    get canon (add c ob).1 n = .ok (add c ob).2 ↔ n = ob.tgt ∨ c.targets.get n = none := by
  unfold add get
  simp only [Dict.get_set, hn, if_true]
  by_cases h : ob.tgt = n
  · subst h; simp
  · simp only [h, if_false]
    have h' : ¬ n = ob.tgt := fun e => h e.symm
    cases hg : c.targets.get n with
    | none => simp
    | some o =>
      have := hfresh n o hg
      simp only [Except.ok.injEq, h', reduceCtorEq, or_self, iff_false]
      omega

/-- the freshness hypothesis holds in every reachable registry -/
theorem fresh_runOps (ops : List Op) : ∀ c : Reg,
    (∀ k o, c.targets.get k = some o → o < c.next) →
    ∀ k o, (runOps canon c ops).targets.get k = some o → o < (runOps canon c ops).next := by
  induction ops with
  | nil => intro c h; exact h
  | cons op ops ih =>
    intro c h
    cases op with
    | add ob =>
      apply ih
      intro k o hk
      simp only [add, Dict.get_set] at hk ⊢
      split at hk
      · cases hk; omega
      · have := h k o hk; omega
    | has n =>
      apply ih
      intro k o hk
      unfold has at hk ⊢
      split at hk
      · rename_i hn; rw [if_pos hn]; exact h k o hk
      · rename_i hn
        rw [if_neg hn]
        split at hk
        · rename_i o' ho'
          simp only [Dict.get_set] at hk
          split at hk
          · cases hk; exact h _ _ ho'
          · exact h k o hk
        · exact h k o hk

/-! ### C17, C18 -/

theorem nameDep_iff {n d : String} {o : Nat} (h : Resolves canon c n o) :
    NameDep canon c n d ↔ d ∈ (c.obj o).deps := by
  constructor
  · rintro ⟨o', h', hd⟩; rw [← h.unique h'] at hd; exact hd
  · intro hd; exact ⟨o, h, hd⟩

/-- body of the loop -/
def closeBody (canon : String → String) (c : Reg) (fuel : Nat) (accum : List String) (d : String) :
    Except Err (List String) :=
  if d ∈ accum then .ok accum else dependsAsSetImpl canon c fuel d (sadd accum d)

theorem impl_succ (fuel : Nat) (n : String) (acc : List String) :
    dependsAsSetImpl canon c (fuel + 1) n acc =
      match get canon c n with
      | .error e => .error e
      | .ok o => (c.obj o).deps.foldlM (closeBody canon c fuel) acc := rfl

theorem impl_ok (fuel : Nat) : ∀ (n : String) (acc acc' : List String),
    dependsAsSetImpl canon c fuel n acc = .ok acc' →
    (∀ x ∈ acc, x ∈ acc') ∧ (∀ d, NameDep canon c n d → d ∈ acc') ∧
    (∃ o, Resolves canon c n o) ∧
    (∀ x ∈ acc', x ∉ acc → TransGen (NameDep canon c) n x ∧ (∃ o, Resolves canon c x o) ∧
      ∀ d, NameDep canon c x d → d ∈ acc') ∧
    (acc.Nodup → acc'.Nodup) := by
  induction fuel with
  | zero => intro n acc acc' h; simp [dependsAsSetImpl] at h
  | succ fuel ih =>
    intro n acc acc' h
    rw [impl_succ] at h
    cases hg : get canon c n with
    | error e => rw [hg] at h; cases h
    | ok o =>
      rw [hg] at h
      have hres := get_ok.1 hg
      have loop : ∀ (ds : List String) (a a' : List String), (∀ d ∈ ds, NameDep canon c n d) →
          ds.foldlM (closeBody canon c fuel) a = .ok a' →
          (∀ x ∈ a, x ∈ a') ∧ (∀ d ∈ ds, d ∈ a') ∧
          (∀ x ∈ a', x ∉ a → TransGen (NameDep canon c) n x ∧ (∃ o, Resolves canon c x o) ∧
            ∀ d, NameDep canon c x d → d ∈ a') ∧
          (a.Nodup → a'.Nodup) := by
        intro ds
        induction ds with
        | nil =>
          intro a a' _ h
          simp only [List.foldlM_nil] at h; cases h
          exact ⟨fun _ h => h, by simp, fun x hx hn => absurd hx hn, id⟩
        | cons d ds ihd =>
          intro a a' hds h
          simp only [List.foldlM_cons] at h
          have hds' : ∀ d ∈ ds, NameDep canon c n d := fun x hx => hds x (by simp [hx])
          have hnd := hds d (by simp)
          by_cases hda : d ∈ a
          · simp only [closeBody, hda, if_true] at h
            obtain ⟨h1, h2, h3, h4⟩ := ihd a a' hds' h
            refine ⟨h1, ?_, h3, h4⟩
            intro x hx
            rcases List.mem_cons.1 hx with rfl | hx
            · exact h1 _ hda
            · exact h2 x hx
          · have hb : closeBody canon c fuel a d = dependsAsSetImpl canon c fuel d (sadd a d) := by
              simp only [closeBody, hda, if_false]
            rw [hb] at h
            cases hi : dependsAsSetImpl canon c fuel d (sadd a d) with
            | error e => rw [hi] at h; cases h
            | ok a1 =>
              rw [hi] at h
              obtain ⟨g1, g2, g3, g4, g5⟩ := ih d (sadd a d) a1 hi
              obtain ⟨h1, h2, h3, h4⟩ := ihd a1 a' hds' h
              have hda1 : d ∈ a1 := g1 d (mem_sadd.2 (Or.inr rfl))
              refine ⟨fun x hx => h1 x (g1 x (mem_sadd.2 (Or.inl hx))), ?_, ?_, ?_⟩
              · intro x hx
                rcases List.mem_cons.1 hx with rfl | hx
                · exact h1 _ hda1
                · exact h2 x hx
              · intro x hx hxa
                by_cases hx1 : x ∈ a1
                · by_cases hxd : x = d
                  · subst hxd
                    exact ⟨.single hnd, g3, fun y hy => h1 y (g2 y hy)⟩
                  · obtain ⟨k1, k2, k3⟩ := g4 x hx1 (by simp [hxa, hxd])
                    exact ⟨.head hnd k1, k2, fun y hy => h1 y (k3 y hy)⟩
                · exact h3 x hx hx1
              · intro hn; exact h4 (g5 (nodup_sadd hn d))
      obtain ⟨h1, h2, h3, h4⟩ := loop _ _ _ (fun d hd => (nameDep_iff hres).2 hd) h
      exact ⟨h1, fun d hd => h2 d ((nameDep_iff hres).1 hd), ⟨o, hres⟩, h3, h4⟩

/-- With enough recursion depth the only possible failure is an unregistered name. -/
theorem impl_total (l : List String) (fuel : Nat) : ∀ (n : String) (acc : List String),
    acc.Nodup → (∀ x ∈ acc, x ∈ l) → (∀ x, TransGen (NameDep canon c) n x → x ∈ l) →
    l.length < fuel + acc.length →
    (∃ acc', dependsAsSetImpl canon c fuel n acc = .ok acc') ∨
    (dependsAsSetImpl canon c fuel n acc = .error .exit ∧
      ∃ x, ReflTransGen (NameDep canon c) n x ∧ ∀ o, ¬ Resolves canon c x o) := by
  induction fuel with
  | zero =>
    intro n acc hn hl _ hf
    have := (hn.subperm (l₂ := l) hl).length_le
    omega
  | succ fuel ih =>
    intro n acc hn hl hr hf
    rw [impl_succ]
    cases hg : get canon c n with
    | error e =>
      right
      have : e = .exit := by
        unfold get at hg
        split at hg
        · cases hg
        · split at hg
          · cases hg
          · cases hg; rfl
      subst this
      exact ⟨rfl, n, .refl, get_err.2 hg⟩
    | ok o =>
      have hres := get_ok.1 hg
      have loop : ∀ (ds : List String) (a : List String), (∀ d ∈ ds, NameDep canon c n d) →
          a.Nodup → (∀ x ∈ a, x ∈ l) → acc.length ≤ a.length →
          (∃ a', ds.foldlM (closeBody canon c fuel) a = .ok a') ∨
          (ds.foldlM (closeBody canon c fuel) a = .error .exit ∧
            ∃ x, ReflTransGen (NameDep canon c) n x ∧ ∀ o, ¬ Resolves canon c x o) := by
        intro ds
        induction ds with
        | nil => intro a _ _ _ _; exact Or.inl ⟨a, rfl⟩
        | cons d ds ihd =>
          intro a hds han hal hlen
          have hds' : ∀ d ∈ ds, NameDep canon c n d := fun x hx => hds x (by simp [hx])
          have hnd := hds d (by simp)
          simp only [List.foldlM_cons]
          by_cases hda : d ∈ a
          · simp only [closeBody, hda, if_true]
            exact ihd a hds' han hal hlen
          · have hb : closeBody canon c fuel a d = dependsAsSetImpl canon c fuel d (sadd a d) := by
              simp only [closeBody, hda, if_false]
            rw [hb]
            have hlen' : (sadd a d).length = a.length + 1 := by simp [sadd, hda]
            have hal' : ∀ x ∈ sadd a d, x ∈ l := by
              intro x hx
              rcases mem_sadd.1 hx with hx | rfl
              · exact hal x hx
              · exact hr _ (.single hnd)
            rcases ih d (sadd a d) (nodup_sadd han d) hal'
              (fun x hx => hr x (.head hnd hx)) (by omega) with ⟨a1, h1⟩ | ⟨h1, x, hx, hx'⟩
            · rw [h1]
              obtain ⟨g1, g2, _, g4, g5⟩ := impl_ok fuel d (sadd a d) a1 h1
              have ha1n := g5 (nodup_sadd han d)
              refine ihd a1 hds' ha1n ?_ ?_
              · intro y hy
                by_cases hya : y ∈ sadd a d
                · exact hal' y hya
                · exact hr y (.head hnd (g4 y hy hya).1)
              · have := ((nodup_sadd han d).subperm (l₂ := a1) g1).length_le
                omega
            · rw [h1]
              exact Or.inr ⟨rfl, x, .head hnd hx, hx'⟩
      exact loop _ _ (fun d hd => (nameDep_iff hres).2 hd) hn hl (le_refl _)

theorem sorted_perm (l : List String) : (sorted l).Perm l := List.perm_insertionSort _ _

theorem sorted_strict {l : List String} (h : l.Nodup) : (sorted l).Pairwise (· < ·) := by
  have h1 : (sorted l).Pairwise (· ≤ ·) := List.pairwise_insertionSort (· ≤ ·) l
  have h2 : (sorted l).Nodup := (sorted_perm l).nodup_iff.2 h
  have := h1.and h2
  exact this.imp (fun {a b} hab => lt_of_le_of_ne hab.1 hab.2)

/-- all dependency names mentioned in the registry -/
def allDeps (c : Reg) : List String := mkset (c.targets.flatMap fun p => (c.obj p.2).deps)

theorem reach_mem_allDeps {n x : String} (h : TransGen (NameDep canon c) n x) : x ∈ allDeps c := by
  have : ∀ a b, NameDep canon c a b → b ∈ allDeps c := by
    rintro a b ⟨o, hr, hd⟩
    unfold allDeps
    rw [mem_mkset, List.mem_flatMap]
    rcases hr with hr | ⟨_, hr⟩
    · exact ⟨_, Dict.mem_of_get hr, hd⟩
    · exact ⟨_, Dict.mem_of_get hr, hd⟩
  cases h with
  | single h => exact this _ _ h
  | tail _ h => exact this _ _ h

/-- C17: what `depends_as_set` returns (cache never consulted, see C18). -/
theorem closure_spec (lim : Nat) (cache cache' : Cache) (n : String) (incroot : Bool)
    (r : List String) (hc : ∀ t b, cache.get (.pair t b) = none)
    (h : dependsAsSet canon c lim cache n incroot = .ok (r, cache')) :
    r.Pairwise (· < ·) ∧ AllRegistered canon c n ∧
    ∀ x, x ∈ r ↔ TransGen (NameDep canon c) n x ∨ (incroot = true ∧ x = n) := by
  unfold dependsAsSet at h
  rw [hc] at h
  simp only at h
  generalize hacc : (if incroot = true then [n] else []) = acc0 at h
  have hacc0 : ∀ x, x ∈ acc0 ↔ incroot = true ∧ x = n := by
    intro x; rw [← hacc]; cases incroot <;> simp
  have hnd0 : acc0.Nodup := by rw [← hacc]; cases incroot <;> simp
  cases hi : dependsAsSetImpl canon c lim n acc0 with
  | error e => rw [hi] at h; cases h
  | ok acc =>
    rw [hi] at h
    cases h
    obtain ⟨h1, h2, h3, h4, h5⟩ := impl_ok lim n acc0 acc hi
    have hreach : ∀ x, TransGen (NameDep canon c) n x → x ∈ acc := by
      intro x hx
      induction hx with
      | single hx => exact h2 _ hx
      | @tail y z _ hyz ih =>
        by_cases hy : y ∈ acc0
        · rw [((hacc0 y).1 hy).2] at hyz; exact h2 _ hyz
        · exact (h4 y ih hy).2.2 z hyz
    refine ⟨sorted_strict (h5 hnd0), ?_, ?_⟩
    · intro d hd
      rcases reflTransGen_iff_eq_or_transGen.1 hd with rfl | hd
      · exact h3
      · by_cases hd0 : d ∈ acc0
        · rw [((hacc0 d).1 hd0).2]; exact h3
        · exact (h4 d (hreach d hd) hd0).2.1
    · intro x
      rw [(sorted_perm acc).mem_iff]
      constructor
      · intro hx
        by_cases hx0 : x ∈ acc0
        · exact Or.inr ((hacc0 x).1 hx0)
        · exact Or.inl (h4 x hx hx0).1
      · rintro (hx | hx)
        · exact hreach x hx
        · exact h1 x ((hacc0 x).2 hx)

/-- C17: `depends_as_set` returns a strictly increasing list of exactly the names reachable
through one or more dependencies, plus the root iff `incroot`.  It terminates on every graph:
with a recursion limit above the number of distinct dependency names it returns iff all reachable
names are registered and terminates the program otherwise. -/
theorem C17_closure (canon : String → String) (c : Reg) (lim : Nat) (n : String) (incroot : Bool) :
    (∀ r cache', dependsAsSet canon c lim [] n incroot = .ok (r, cache') →
      r.Pairwise (· < ·) ∧
      ∀ x, x ∈ r ↔ TransGen (NameDep canon c) n x ∨ (incroot = true ∧ x = n)) ∧
    ((allDeps c).length + 1 < lim →
      (AllRegistered canon c n → ∃ r cache', dependsAsSet canon c lim [] n incroot = .ok (r, cache')) ∧
      (¬ AllRegistered canon c n → dependsAsSet canon c lim [] n incroot = .error .exit)) := by
  refine ⟨fun r cache' h => ?_, fun hl => ?_⟩
  · have := closure_spec lim [] cache' n incroot r (by simp) h
    exact ⟨this.1, this.2.2⟩
  · have key := impl_total (canon := canon) (c := c) (n :: allDeps c) lim n
      (if incroot = true then [n] else []) (by cases incroot <;> simp)
      (by cases incroot <;> simp) (fun x hx => by simp [reach_mem_allDeps hx])
      (by simp; omega)
    constructor
    · intro hreg
      rcases key with ⟨acc', h⟩ | ⟨_, x, hx, hx'⟩
      · refine ⟨sorted acc', Dict.set [] (.plain n) (sorted acc'), ?_⟩
        simp only [dependsAsSet, Dict.get_nil, h]
      · obtain ⟨o, ho⟩ := hreg x hx
        exact absurd ho (hx' o)
    · intro hreg
      rcases key with ⟨acc', h⟩ | ⟨h, _⟩
      · exfalso
        have h' : dependsAsSet canon c lim [] n incroot =
            .ok (sorted acc', Dict.set [] (.plain n) (sorted acc')) := by
          simp only [dependsAsSet, Dict.get_nil, h]
        exact hreg (closure_spec lim [] _ n incroot _ (by simp) h').2.1
      · simp only [dependsAsSet, Dict.get_nil, h]

/-- a cyclic registry: a -> b -> a, a -> c -/
def cyc : Reg :=
  (add (add (add Reg.empty ⟨"a", ["b", "c"], true, [], "x"⟩).1 ⟨"b", ["a"], true, [], "x"⟩).1
    ⟨"c", [], true, [], "x"⟩).1

example : (dependsAsSet id cyc 10 [] "a" false).map (·.1) = .ok ["a", "b", "c"] := by decide +kernel
example : (dependsAsSet id cyc 10 [] "b" true).map (·.1) = .ok ["a", "b", "c"] := by decide +kernel
example : (dependsAsSet id cyc 10 [] "x" true).map (·.1) = .error .exit := by decide +kernel

/-- Registrations and closure queries, with the cache that the core keeps. -/
inductive QOp where
  | reg (op : Op)
  | query (n : String) (incroot : Bool)

/-- registry and cache after a history (a query that fails leaves the cache alone) -/
def runQ (canon : String → String) (lim : Nat) (c : Reg) (cache : Cache) :
    List QOp → Reg × Cache
  | [] => (c, cache)
  | .reg op :: ops => runQ canon lim (runOps canon c [op]) cache ops
  | .query n b :: ops =>
    match dependsAsSet canon c lim cache n b with
    | .ok (_, cache') => runQ canon lim c cache' ops
    | .error _ => runQ canon lim c cache ops

/-- C18: after any history of registrations and queries `depends_as_set` returns what a core with
the same registry and an empty cache would return. -/
theorem C18_not_stale (canon : String → String) (lim : Nat) (ops : List QOp) (n : String)
    (incroot : Bool) :
    let (c, cache) := runQ canon lim Reg.empty [] ops
    (dependsAsSet canon c lim cache n incroot).map (·.1) =
      (dependsAsSet canon c lim [] n incroot).map (·.1) := by
  have key : ∀ (ops : List QOp) (c : Reg) (cache : Cache),
      (∀ t b, cache.get (.pair t b) = none) →
      ∀ t b, (runQ canon lim c cache ops).2.get (.pair t b) = none := by
    intro ops
    induction ops with
    | nil => intro c cache h; exact h
    | cons op ops ih =>
      intro c cache h
      cases op with
      | reg op => exact ih _ _ h
      | query m b =>
        simp only [runQ]
        split
        · rename_i r cache' hq
          apply ih
          intro t b'
          unfold dependsAsSet at hq
          rw [h] at hq
          simp only at hq
          split at hq
          · cases hq
          · cases hq
            rw [Dict.get_set_ne _ _ (by simp)]
            exact h t b'
        · exact ih _ _ h
  have h := key ops Reg.empty [] (by simp)
  generalize hq : runQ canon lim Reg.empty [] ops = q at h
  obtain ⟨c, cache⟩ := q
  simp only at h ⊢
  unfold dependsAsSet
  rw [h]
  simp only [Dict.get_nil]
  split <;> rfl

/-- the cache is really filled -/
example : (runQ id 10 Reg.empty [] [.reg (.add (fObj [])), .query "f" true]).2 ≠ [] := by
  decide +kernel

end Licant.Core
