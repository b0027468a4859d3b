/-
How long chains of dependencies may be (C137).
-/
import Verif.Core.Asked
import Verif.Core.Update

set_option autoImplicit false

namespace Licant.Core
open Licant.Py Relation Licant.Solver

variable {canon : String → String} {c : Reg}

/-! ### Specification -/

/-- every target of the list but the last one depends on the next one, and on nothing else -/
def Straight (canon : String → String) (c : Reg) (l : List String) : Prop :=
  l.IsChain fun n d => ∃ o, Resolves canon c n o ∧ (c.obj o).deps = [d]

/-! ### Proofs -/

theorem straight_impl : ∀ (l : List String) (n : String) (acc : List String), (∀ x ∈ l, x ∉ acc) → l.Nodup →
    Straight canon c (n :: l) → dependsAsSetImpl canon c l.length n acc = .error .recursion := by
  intro l
  induction l with
  | nil => intro n acc _ _ _; rfl
  | cons d l ih =>
    intro n acc hacc hn hs
    obtain ⟨⟨o, hr, hd⟩, hs'⟩ := List.isChain_cons_cons.1 hs
    obtain ⟨hn1, hn2⟩ := List.nodup_cons.1 hn
    rw [List.length_cons, impl_succ, get_ok.2 hr]
    simp only [hd, List.foldlM_cons, List.foldlM_nil, closeBody, if_neg (hacc d (by simp))]
    rw [ih d (sadd acc d) ?_ hn2 hs']
    · rfl
    · intro x hx hm
      rcases mem_sadd.1 hm with hm | rfl
      · exact hacc x (by simp [hx]) hm
      · exact hn1 hx

/-- **C137 violated**: in every core, if `lim` nested calls are possible and a target is at the top of a straight chain of more than
`lim` targets, `recurse_update` of it raises `RecursionError` before any work function is called, for all numbers of threads and orders of sets. -/
theorem C137_violated (lim : Nat) (setOrder : List Nat → List Nat) (order : Nat → List Nat → List Nat) (cache : Cache)
    (hcache : ∀ t b, cache.get (.pair t b) = none) (rt : Option (Option Int)) (threads : Option Int) (self : Nat)
    (l : List String) (hl : l.length = lim) (hn : ((c.obj self).tgt :: l).Nodup) (hs : Straight canon c ((c.obj self).tgt :: l)) :
    recurseUpdate canon c setOrder order lim cache rt self threads = .error .recursion := by
  subst hl
  obtain ⟨hn1, hn2⟩ := List.nodup_cons.1 hn
  have := straight_impl l (c.obj self).tgt [(c.obj self).tgt] (by
    intro x hx hm
    rw [List.mem_singleton] at hm
    subst hm
    exact hn1 hx) hn2 hs
  unfold recurseUpdate prepare dependsAsSet
  simp only [hcache, if_true, this, bind, Except.bind]

/-! what holds -/

/-- With enough recursion depth for the chains, the only possible failure is an unregistered name. -/
theorem impl_depth (fuel : Nat) : ∀ (n : String) (acc : List String),
    (∀ l : List String, l.Nodup → (∀ x ∈ l, x ∉ acc) → (n :: l).IsChain (NameDep canon c) → l.length < fuel) →
    (∃ acc', dependsAsSetImpl canon c fuel n acc = .ok acc') ∨
    (dependsAsSetImpl canon c fuel n acc = .error .exit ∧
      ∃ x, ReflTransGen (NameDep canon c) n x ∧ ∀ o, ¬ Resolves canon c x o) := by
  induction fuel with
  | zero =>
    intro n acc h
    exact absurd (h [] (by simp) (by simp) (by simp)) (by simp)
  | succ fuel ih =>
    intro n acc h
    rw [impl_succ]
    cases hg : get canon c n with
    | error e =>
      right
      have : e = .exit := by
        unfold get at hg
        split at hg
        · cases hg
        · split at hg
          · cases hg
          · cases hg; rfl
      subst this
      exact ⟨rfl, n, .refl, get_err.2 hg⟩
    | ok o =>
      have hres := get_ok.1 hg
      have loop : ∀ (ds : List String) (a : List String), (∀ d ∈ ds, NameDep canon c n d) → (∀ x ∈ acc, x ∈ a) →
          (∃ a', ds.foldlM (closeBody canon c fuel) a = .ok a') ∨
          (ds.foldlM (closeBody canon c fuel) a = .error .exit ∧
            ∃ x, ReflTransGen (NameDep canon c) n x ∧ ∀ o, ¬ Resolves canon c x o) := by
        intro ds
        induction ds with
        | nil => intro a _ _; exact Or.inl ⟨a, rfl⟩
        | cons d ds ihd =>
          intro a hds hsub
          have hds' : ∀ d ∈ ds, NameDep canon c n d := fun x hx => hds x (by simp [hx])
          have hnd := hds d (by simp)
          simp only [List.foldlM_cons]
          by_cases hda : d ∈ a
          · simp only [closeBody, hda, if_true]
            exact ihd a hds' hsub
          · have hb : closeBody canon c fuel a d = dependsAsSetImpl canon c fuel d (sadd a d) := by
              simp only [closeBody, hda, if_false]
            rw [hb]
            rcases ih d (sadd a d) (by
              intro l hl hdis hch
              have h1 : d ∉ l := fun hd => hdis d hd (mem_sadd.2 (Or.inr rfl))
              have := h (d :: l) (List.nodup_cons.2 ⟨h1, hl⟩) (by
                intro x hx hxa
                rcases List.mem_cons.1 hx with rfl | hx
                · exact hda (hsub _ hxa)
                · exact hdis x hx (mem_sadd.2 (Or.inl (hsub _ hxa)))) (List.isChain_cons_cons.2 ⟨hnd, hch⟩)
              simpa using this) with ⟨a1, h1⟩ | ⟨h1, x, hx, hx'⟩
            · rw [h1]
              obtain ⟨g1, _⟩ := impl_ok fuel d (sadd a d) a1 h1
              exact ihd a1 hds' fun x hx => g1 _ (mem_sadd.2 (Or.inl (hsub x hx)))
            · rw [h1]
              exact Or.inr ⟨rfl, x, .head hnd hx, hx'⟩
      exact loop _ _ (fun d hd => (nameDep_iff hres).2 hd) (fun x hx => hx)

/-- a chain of names is a chain of targets -/
theorem objects_of_names : ∀ (l : List String) (n : String), AllRegistered canon c n → (n :: l).IsChain (NameDep canon c) →
    ∃ o os, Resolves canon c n o ∧ (o :: os).IsChain (ObjDep canon c) ∧ os.length = l.length ∧ ∀ x ∈ o :: os, Registered c x := by
  intro l
  induction l with
  | nil =>
    intro n hr _
    obtain ⟨o, ho⟩ := hr n .refl
    refine ⟨o, [], ho, by simp, rfl, ?_⟩
    intro x hx
    rw [List.mem_singleton] at hx; subst hx
    exact ho.registered
  | cons d l ih =>
    intro n hr hch
    obtain ⟨hnd, hch'⟩ := List.isChain_cons_cons.1 hch
    obtain ⟨o', os, h1, h2, h3, h4⟩ := ih d (fun x hx => hr x (.head hnd hx)) hch'
    obtain ⟨o, ho, hd⟩ := hnd
    refine ⟨o, o' :: os, ho, List.isChain_cons_cons.2 ⟨⟨d, hd, h1⟩, h2⟩, by simp [h3], ?_⟩
    intro x hx
    rcases List.mem_cons.1 hx with rfl | hx
    · exact ho.registered
    · exact h4 x hx

/-- `depends_as_set` needs no more nested calls than the longest chain has targets -/
theorem closure_depth {lim : Nat} (hd : DepthBound canon c lim) {n : String} (hr : AllRegistered canon c n) (incroot : Bool) :
    ∃ r cache', dependsAsSet canon c lim [] n incroot = .ok (r, cache') := by
  have key := impl_depth (canon := canon) (c := c) lim n (if incroot = true then [n] else []) (by
    intro l _ _ hch
    obtain ⟨o, os, _, h2, h3, h4⟩ := objects_of_names l n hr hch
    have := hd (o :: os) h4 h2
    simp only [List.length_cons] at this
    omega)
  rcases key with ⟨acc', h⟩ | ⟨_, x, hx, hx'⟩
  · exact ⟨sorted acc', _, by simp [dependsAsSet, Dict.get, h]; rfl⟩
  · obtain ⟨o, ho⟩ := hr x hx
    exact absurd ho (hx' o)

theorem Prepared.depth {self : Nat} {objs : List Nat} {ds : List DTarget} (P : Prepared canon c self objs ds) (hc : Consistent c)
    (hself : Registered c self) {lim : Nat} (hd : DepthBound canon c lim) : DepthWithin ds lim := by
  intro l _ hlt hch
  have hb := hd ((l.map fun i => objs.getD i 0).reverse) ?_ ?_
  · simpa using hb
  · intro o ho
    rw [List.mem_reverse, List.mem_map] at ho
    obtain ⟨i, hi, rfl⟩ := ho
    have hil : i < objs.length := by rw [← P.len]; exact hlt i hi
    refine P.registered hself ?_
    rw [List.getD_eq_getElem?_getD, List.getElem?_eq_getElem hil]
    exact List.getElem_mem hil
  · rw [List.isChain_reverse, List.isChain_map]
    refine hch.imp ?_
    intro a b h
    obtain ⟨o, o', h1, h2, h3⟩ := (P.dependsOn hc hself).1 h
    rw [List.getD_eq_getElem?_getD, List.getD_eq_getElem?_getD, h1, h2]
    exact h3

/-- **C137**, what holds: if all names are registered, there is no cycle, and no chain of dependencies has more than `lim` targets, however many
targets there are altogether, then `recurse_update` of every registered target gets to the point where the workers start.
Missing: longer chains (`C137_violated`). -/
theorem C137_partial (ops : List Op) (hre : NoReRegistration ops) {setOrder : List Nat → List Nat} {order : Nat → List Nat → List Nat}
    (hso : ∀ l, (setOrder l).Perm l) (ho : IsOrder order) {self lim : Nat}
    (hself : Registered (runOps canon Reg.empty ops) self)
    (hreg : AllRegistered canon (runOps canon Reg.empty ops) ((runOps canon Reg.empty ops).obj self).tgt)
    (hac : ∀ o, Closure canon (runOps canon Reg.empty ops) self o → ¬ TransGen (ObjDep canon (runOps canon Reg.empty ops)) o o)
    (hd : DepthBound canon (runOps canon Reg.empty ops) lim)
    (rt : Option (Option Int)) (threads : Option Int) (k : Int) (hk : threadCount rt threads = some k) :
    ∃ objs ds g, recurseUpdate canon (runOps canon Reg.empty ops) setOrder order lim [] rt self threads =
      .ok (objs, ds, g, k.toNat) := by
  have hc : Consistent (runOps canon Reg.empty ops) := consistent_runOps ops hre
  generalize runOps canon Reg.empty ops = c at *
  obtain ⟨names, ca, hnames⟩ := closure_depth hd hreg true
  have hspec := closure_spec lim [] _ _ true names (by simp) hnames
  have hmem' : ∀ x, x ∈ names ↔ ReflTransGen (NameDep canon c) (c.obj self).tgt x := by
    intro x
    rw [hspec.2.2, reflTransGen_iff_eq_or_transGen]
    simp only [true_and]
    exact or_comm
  obtain ⟨os, hos⟩ := mapM_total (f := get canon c) (l := names) (by
    intro x hx
    obtain ⟨o, ho⟩ := hreg x ((hmem' x).1 hx)
    exact ⟨o, get_ok.2 ho⟩)
  obtain ⟨ds, hds⟩ := mapM_total (f := mkDep canon c) (l := setOrder (mkset os)) (by
    intro o hoo
    rw [(hso _).mem_iff, mem_mkset, mem_deplist (mapM_get.1 hos)] at hoo
    obtain ⟨x, hx, hr⟩ := hoo
    unfold mkDep
    obtain ⟨dd, hdd⟩ := mapM_total (f := fun d => do
        let o' ← get canon c d
        Except.ok (c.obj o').tgt) (l := (c.obj o).deps) (by
      intro d hd
      obtain ⟨o', ho'⟩ := hreg d (((hmem' x).1 hx).tail ⟨o, hr, hd⟩)
      exact ⟨(c.obj o').tgt, by simp only [bind, Except.bind, get_ok.2 ho']⟩)
    refine ⟨⟨(c.obj o).tgt, dd⟩, ?_⟩
    simp only [bind, Except.bind] at hdd ⊢
    rw [hdd])
  have hprep : prepare canon c setOrder lim [] self = .ok (setOrder (mkset os), ds, ca) := by
    unfold prepare
    simp only [bind, Except.bind, hnames, hos, hds]
  have P := prepare_ok hso (resolves_self hc hself) (by simp) hprep
  have hne : ds ≠ [] := by
    intro e
    have h1 := (P.mem self).2 .refl
    have h2 := P.len
    rw [e] at h2
    rw [List.length_eq_zero_iff.1 h2.symm] at h1
    cases h1
  obtain ⟨g, hg⟩ := (Solver.C11_accepts ho (P.depth hc hself hd)).2 ⟨hne, P.closed, by
      rw [P.cyclic hc hself]
      rintro ⟨o, h1, h2⟩
      exact hac o h1 h2⟩
  refine ⟨setOrder (mkset os), ds, g, ?_⟩
  unfold recurseUpdate
  simp only [bind, Except.bind, hprep, mkSolver, hk, hg]

/-! ### chains of every length -/

def lineObj (i : Nat) : Obj := ⟨stepName i, if i = 0 then [] else [stepName (i - 1)], true, [], "update"⟩

/-- `k` targets, each of which depends on the one registered before -/
def line (k : Nat) : List Op := (List.range k).map fun i => .add (lineObj i)

theorem line_prefix (k : Nat) :
    (runOps id Reg.empty (line k)).targets = (List.range k).map (fun i => (stepName i, i)) ∧
    (∀ i < k, (runOps id Reg.empty (line k)).obj i = lineObj i) ∧
    (∀ i, k ≤ i → ((runOps id Reg.empty (line k)).obj i).deps = []) ∧ (runOps id Reg.empty (line k)).next = k := by
  induction k with
  | zero => simp [line, runOps, Reg.empty]
  | succ k ih =>
    have he : line (k + 1) = line k ++ [.add (lineObj k)] := by simp [line, List.range_succ]
    rw [he, runOps_append]
    simp only [runOps]
    generalize runOps id Reg.empty (line k) = c at *
    obtain ⟨h1, h2, h4, h3⟩ := ih
    have hnone : c.targets.get (lineObj k).tgt = none := by
      rw [h1]; simp [lineObj, steps_get]
    refine ⟨?_, ?_, ?_, by simp [Core.add, h3]⟩
    · show c.targets.set (lineObj k).tgt c.next = _
      rw [dict_set_new hnone, h1, h3, List.range_succ]; simp [lineObj]
    · intro i hi
      simp only [Core.add, h3]
      split
      · rename_i e; rw [e]
      · exact h2 i (by omega)
    · intro i hi
      have hne : i ≠ k := by omega
      simpa [Core.add, h3, hne] using h4 i (by omega)

theorem line_resolves {k i : Nat} (hi : i < k) : Resolves id (runOps id Reg.empty (line k)) (stepName i) i := by
  left
  rw [(line_prefix k).1, steps_get, if_pos hi]

theorem line_dep {k o o' : Nat} : ObjDep id (runOps id Reg.empty (line k)) o o' ↔ o < k ∧ o = o' + 1 := by
  obtain ⟨h1, h2, h4, _⟩ := line_prefix k
  constructor
  · rintro ⟨d, hd, hr⟩
    by_cases hok : o < k
    · rw [h2 o hok] at hd
      simp only [lineObj] at hd
      split at hd
      · cases hd
      · rw [List.mem_singleton] at hd
        subst hd
        have hg : Dict.get ((List.range k).map fun i => (stepName i, i)) (stepName (o - 1)) = some o' := by
          rcases hr with hr | ⟨_, hr⟩
          · rw [h1] at hr; exact hr
          · rw [h1] at hr; exact hr
        rw [steps_get] at hg
        split at hg
        · cases hg; exact ⟨hok, by omega⟩
        · cases hg
    · rw [h4 o (by omega)] at hd; cases hd
  · rintro ⟨hok, rfl⟩
    refine ⟨stepName o', ?_, line_resolves (by omega)⟩
    rw [h2 _ hok]
    simp [lineObj]

theorem line_registered {k o : Nat} : Registered (runOps id Reg.empty (line k)) o ↔ o < k := by
  obtain ⟨h1, _⟩ := line_prefix k
  constructor
  · rintro ⟨n, hn⟩
    rw [h1] at hn
    have := Dict.mem_of_get hn
    simp only [List.mem_map, List.mem_range, Prod.mk.injEq] at this
    obtain ⟨i, hi, _, rfl⟩ := this
    exact hi
  · intro h
    exact (line_resolves h).registered

theorem line_depth (k : Nat) : DepthBound id (runOps id Reg.empty (line k)) k := by
  intro l hreg hch
  have : ∀ (l : List Nat) (o : Nat), (o :: l).IsChain (ObjDep id (runOps id Reg.empty (line k))) → l.length ≤ o := by
    intro l
    induction l with
    | nil => intro o _; simp
    | cons x l ih =>
      intro o hch
      obtain ⟨h1, h2⟩ := List.isChain_cons_cons.1 hch
      have := ih x h2
      have := (line_dep.1 h1).2
      simp only [List.length_cons]; omega
  cases l with
  | nil => simp
  | cons o l =>
    have h1 := this l o hch
    have h2 := line_registered.1 (hreg o (by simp))
    simp only [List.length_cons]; omega

theorem line_acyclic (k : Nat) : Acyclic id (runOps id Reg.empty (line k)) := by
  intro o h
  have : ∀ a b, TransGen (ObjDep id (runOps id Reg.empty (line k))) a b → b < a := by
    intro a b h
    induction h with
    | single h => have := line_dep.1 h; omega
    | tail _ h ih => have := line_dep.1 h; omega
  exact lt_irrefl _ (this o o h)

theorem line_fully (k : Nat) : FullyRegistered id (runOps id Reg.empty (line k)) := by
  intro o ho d hd
  have hok := line_registered.1 ho
  rw [(line_prefix k).2.1 o hok] at hd
  simp only [lineObj] at hd
  split at hd
  · cases hd
  · rw [List.mem_singleton] at hd
    subst hd
    exact ⟨_, line_resolves (by omega)⟩

theorem line_fresh (k : Nat) : NoReRegistration (line k) := by
  unfold NoReRegistration line
  rw [List.filterMap_map]
  refine (?_ : List.Nodup ((List.range k).filterMap (some ∘ stepName)))
  rw [List.filterMap_eq_map]
  exact List.Nodup.map (fun a b h => stepName_inj h) List.nodup_range

theorem line_straight {k : Nat} : ∀ m, m < k → Straight id (runOps id Reg.empty (line k)) (((List.range (m + 1)).map stepName).reverse) := by
  intro m
  induction m with
  | zero => intro _; simp [Straight]
  | succ m ih =>
    intro hm
    have h1 := ih (by omega)
    unfold Straight at h1 ⊢
    rw [List.range_succ, List.map_append, List.reverse_append] at h1 ⊢
    simp only [List.map_cons, List.map_nil, List.reverse_cons, List.reverse_nil, List.nil_append, List.cons_append] at h1 ⊢
    rw [List.range_succ, List.map_append, List.reverse_append]
    simp only [List.map_cons, List.map_nil, List.reverse_cons, List.reverse_nil, List.nil_append, List.cons_append]
    refine List.isChain_cons_cons.2 ⟨⟨m + 1, line_resolves hm, ?_⟩, h1⟩
    rw [(line_prefix k).2.1 _ hm]
    simp [lineObj]

/-- Witness for C137_violated, for every number of possible nested calls: a core in which `lim + 1` targets were registered, each after the
one it depends on, cannot be updated; `lim` such targets can. -/
theorem C137_violated_witness (lim : Nat) (threads : Int) :
    (line (lim + 1)).length = lim + 1 ∧ NoReRegistration (line (lim + 1)) ∧ FullyRegistered id (runOps id Reg.empty (line (lim + 1))) ∧
    Acyclic id (runOps id Reg.empty (line (lim + 1))) ∧
    (∀ setOrder order, recurseUpdate id (runOps id Reg.empty (line (lim + 1))) setOrder order lim [] none lim (some threads) = .error .recursion) ∧
    ∀ setOrder order, (∀ l, (setOrder l).Perm l) → IsOrder order → 0 < lim →
      ∃ r, recurseUpdate id (runOps id Reg.empty (line lim)) setOrder order lim [] none (lim - 1) (some threads) = .ok r := by
  refine ⟨by simp [line], line_fresh _, line_fully _, line_acyclic _, fun setOrder order => ?_, fun setOrder order h1 h2 h3 => ?_⟩
  · have hs := line_straight (k := lim + 1) lim (by omega)
    rw [List.range_succ, List.map_append, List.reverse_append] at hs
    have ht : ((runOps id Reg.empty (line (lim + 1))).obj lim).tgt = stepName lim := by
      rw [(line_prefix (lim + 1)).2.1 lim (by omega)]; rfl
    refine C137_violated lim setOrder order [] (by simp [Dict.get]) none (some threads) lim (((List.range lim).map stepName).reverse) (by simp) ?_ ?_
    · rw [ht, List.nodup_cons]
      refine ⟨?_, List.nodup_reverse.2 (List.Nodup.map (fun a b h => stepName_inj h) List.nodup_range)⟩
      intro hm
      rw [List.mem_reverse, List.mem_map] at hm
      obtain ⟨i, hi, he⟩ := hm
      have := stepName_inj he
      rw [List.mem_range] at hi
      omega
    · rw [ht]; exact hs
  · have hreg : AllRegistered id (runOps id Reg.empty (line lim)) ((runOps id Reg.empty (line lim)).obj (lim - 1)).tgt := by
      intro d hd
      rcases ReflTransGen.cases_tail hd with rfl | ⟨x, _, o, ho, hx⟩
      · rw [(line_prefix lim).2.1 (lim - 1) (by omega)]
        exact ⟨_, line_resolves (by omega)⟩
      · exact line_fully lim o ho.registered d hx
    obtain ⟨objs, ds, g, h⟩ := C137_partial (canon := id) (line lim) (line_fresh _) h1 h2 (line_registered.2 (by omega : lim - 1 < lim)) hreg
      (fun o _ => line_acyclic lim o) (line_depth lim) none (some threads) threads rfl
    exact ⟨_, h⟩

end Licant.Core
