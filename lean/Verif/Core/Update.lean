/-
recurse_update, do, routines: lemmas and properties C24-C27, C29, C30.
-/
import Verif.Core.Need
import Verif.Solver.Props

set_option autoImplicit false

namespace Licant.Core
open Licant.Py Relation
open Licant.Solver (DTarget DependsOn Denotes Cyclic Closed IsOrder Ev Exec)

variable {canon : String → String} {c : Reg} {setOrder : List Nat → List Nat}
  {order : Nat → List Nat → List Nat} {lim : Nat} {cache cache' : Cache} {self : Nat}
  {objs : List Nat} {ds : List DTarget}

/-! ### consistency of the registry -/

theorem consistent_add {ob : Obj} (hf : ∀ k o, c.targets.get k = some o → o < c.next)
    (h : Consistent c) (hnew : ∀ o, c.targets.get ob.tgt = some o → (c.obj o).tgt ≠ ob.tgt) :
    Consistent (add c ob).1 := by
  intro n o hn
  simp only [add, Dict.get_set] at hn ⊢
  split at hn
  · cases hn; simp
  · have hlt := hf n o hn
    have ho : o ≠ c.next := by omega
    simp only [ho, if_false]
    have h1 := h n o hn
    split
    · rename_i e
      exfalso
      rw [← e] at h1
      exact hnew o h1 e.symm
    · exact h1

theorem consistent_has {n : String} (h : Consistent c) : Consistent (has canon c n).1 := by
  unfold has
  split
  · exact h
  · rename_i hn
    have hn' : c.targets.get n = none := by simpa [Dict.has] using hn
    split
    · rename_i o ho
      intro m o' hm
      simp only [Dict.get_set] at hm ⊢
      have h1 : c.targets.get (c.obj o').tgt = some o' := by
        split at hm
        · cases hm; exact h _ _ ho
        · exact h _ _ hm
      split
      · rename_i e; rw [← e, hn'] at h1; cases h1
      · exact h1
    · exact h

theorem runOps_append (a b : List Op) : ∀ c : Reg, runOps canon c (a ++ b) = runOps canon (runOps canon c a) b := by
  induction a with
  | nil => intro c; rfl
  | cons op a ih =>
    intro c
    cases op <;> exact ih _

/-- every registered object was added under its own name -/
theorem tgt_of_registered (ops : List Op) : ∀ k o, (runOps canon Reg.empty ops).targets.get k = some o →
    ((runOps canon Reg.empty ops).obj o).tgt ∈
      (ops.filterMap fun | .add ob => some ob.tgt | .has _ => none) := by
  induction ops using List.reverseRecOn with
  | nil => intro k o h; simp [runOps, Reg.empty] at h
  | append_singleton ops op ih =>
    intro k o h
    have hf := fresh_runOps (canon := canon) ops Reg.empty (by simp [Reg.empty])
    rw [runOps_append] at h ⊢
    rw [List.filterMap_append, List.mem_append]
    cases op with
    | add ob =>
      simp only [runOps, add, Dict.get_set] at h ⊢
      split at h
      · cases h; right; simp
      · have := hf k o h
        have ho : o ≠ (runOps canon Reg.empty ops).next := by omega
        simp only [ho, if_false]
        exact Or.inl (ih k o h)
    | has n =>
      left
      simp only [runOps] at h ⊢
      unfold has at h ⊢
      split at h
      · rename_i hh; rw [if_pos hh]; exact ih k o h
      · rename_i hh
        rw [if_neg hh]
        split at h
        · rename_i o' ho'
          simp only [Dict.get_set] at h
          split at h
          · cases h; exact ih _ _ ho'
          · exact ih k o h
        · exact ih k o h

/-- A history that registers no name twice leaves a consistent registry. -/
theorem consistent_runOps (ops : List Op) (h : NoReRegistration ops) :
    Consistent (runOps canon Reg.empty ops) := by
  induction ops using List.reverseRecOn with
  | nil => intro n o h; simp [runOps, Reg.empty] at h
  | append_singleton ops op ih =>
    unfold NoReRegistration at h ih
    rw [List.filterMap_append, List.nodup_append] at h
    rw [runOps_append]
    cases op with
    | add ob =>
      refine consistent_add (fresh_runOps ops Reg.empty (by simp [Reg.empty])) (ih h.1) ?_
      intro o ho e
      have := tgt_of_registered (canon := canon) ops ob.tgt o ho
      exact h.2.2 _ this ob.tgt (by simp) e
    | has n => exact consistent_has (ih h.1)

theorem tgt_inj (hc : Consistent c) {o o' : Nat} (ho : Registered c o) (ho' : Registered c o')
    (h : (c.obj o).tgt = (c.obj o').tgt) : o = o' := by
  obtain ⟨n, hn⟩ := ho
  obtain ⟨n', hn'⟩ := ho'
  have h1 := hc _ _ hn
  have h2 := hc _ _ hn'
  rw [h, h2] at h1
  cases h1; rfl

/-! ### what is handed to the solver -/

theorem mkDep_ok {o : Nat} {t : DTarget} (h : mkDep canon c o = .ok t) :
    t.name = (c.obj o).tgt ∧
    (∀ d ∈ (c.obj o).deps, ∃ o', Resolves canon c d o') ∧
    ∀ nm, nm ∈ t.depsArg ↔ ∃ o', ObjDep canon c o o' ∧ (c.obj o').tgt = nm := by
  unfold mkDep at h
  simp only [bind, Except.bind] at h
  split at h
  · cases h
  · rename_i deps hdeps
    cases h
    refine ⟨rfl, ?_⟩
    unfold ObjDep
    generalize (c.obj o).deps = l at hdeps
    simp only
    induction l generalizing deps with
    | nil => cases hdeps; simp
    | cons d l ih =>
      simp only [List.mapM_cons, bind, Except.bind] at hdeps
      split at hdeps
      · cases hdeps
      · rename_i o1 ho1
        split at ho1
        · cases ho1
        · rename_i o2 hg
          cases ho1
          split at hdeps
          · cases hdeps
          · rename_i deps' hdeps'
            cases hdeps
            obtain ⟨i1, i2⟩ := ih deps' hdeps'
            have hr := get_ok.1 hg
            refine ⟨?_, ?_⟩
            · intro x hx
              rcases List.mem_cons.1 hx with rfl | hx
              · exact ⟨_, hr⟩
              · exact i1 x hx
            · intro nm
              rw [List.mem_cons, i2]
              constructor
              · rintro (rfl | ⟨o', ⟨d', hd', hr'⟩, rfl⟩)
                · exact ⟨o2, ⟨d, by simp, hr⟩, rfl⟩
                · exact ⟨o', ⟨d', by simp [hd'], hr'⟩, rfl⟩
              · rintro ⟨o', ⟨d', hd', hr'⟩, rfl⟩
                rcases List.mem_cons.1 hd' with rfl | hd'
                · left; rw [hr.unique hr']
                · exact Or.inr ⟨o', ⟨d', hd', hr'⟩, rfl⟩

theorem mapM_index {α β : Type} {f : α → Except Err β} : ∀ {l : List α} {r : List β},
    l.mapM f = .ok r → r.length = l.length ∧
      ∀ i : Nat, ∀ a, l[i]? = some a → ∃ b, r[i]? = some b ∧ f a = .ok b := by
  intro l
  induction l with
  | nil => intro r h; cases h; simp
  | cons a l ih =>
    intro r h
    simp only [List.mapM_cons, bind, Except.bind] at h
    split at h
    · cases h
    · rename_i b hb
      split at h
      · cases h
      · rename_i r' hr'
        cases h
        obtain ⟨h1, h2⟩ := ih hr'
        refine ⟨by simp [h1], ?_⟩
        intro i x hx
        cases i with
        | zero => simp at hx; subst hx; exact ⟨b, by simp, hb⟩
        | succ i => simpa using h2 i x (by simpa using hx)

theorem mapM_total {α β : Type} {f : α → Except Err β} : ∀ {l : List α},
    (∀ a ∈ l, ∃ b, f a = .ok b) → ∃ r, l.mapM f = .ok r := by
  intro l
  induction l with
  | nil => intro _; exact ⟨[], rfl⟩
  | cons a l ih =>
    intro h
    obtain ⟨b, hb⟩ := h a (by simp)
    obtain ⟨r, hr⟩ := ih (fun x hx => h x (by simp [hx]))
    exact ⟨b :: r, by simp only [List.mapM_cons, bind, Except.bind, hb, hr]; rfl⟩

theorem closure_names {n : String} {o : Nat} (h : Resolves canon c n o) :
    (∀ x o', ReflTransGen (NameDep canon c) n x → Resolves canon c x o' → Closure canon c o o') ∧
    (∀ o', Closure canon c o o' → ∃ x, ReflTransGen (NameDep canon c) n x ∧ Resolves canon c x o') := by
  constructor
  · intro x o' hx
    induction hx generalizing o' with
    | refl => intro h'; rw [h.unique h']; exact .refl
    | tail _ hyz ih =>
      intro h'
      obtain ⟨oy, hy, hd⟩ := hyz
      exact (ih oy hy).tail ⟨_, hd, h'⟩
  · intro o' ho'
    induction ho' with
    | refl => exact ⟨n, .refl, h⟩
    | tail _ hyz ih =>
      obtain ⟨x, hx, hr⟩ := ih
      obtain ⟨d, hd, hr'⟩ := hyz
      exact ⟨d, hx.tail ⟨_, hr, hd⟩, hr'⟩

/-- What `recurse_update` hands to the solver. -/
structure Prepared (canon : String → String) (c : Reg) (root : Nat) (objs : List Nat)
    (ds : List DTarget) : Prop where
  nodup : objs.Nodup
  mem : ∀ o, o ∈ objs ↔ Closure canon c root o
  len : ds.length = objs.length
  at_ : ∀ (i : Nat) o, objs[i]? = some o → ∃ t, ds[i]? = some t ∧ t.name = (c.obj o).tgt ∧
    (∀ d ∈ (c.obj o).deps, ∃ o', Resolves canon c d o') ∧
    ∀ nm, nm ∈ t.depsArg ↔ ∃ o', ObjDep canon c o o' ∧ (c.obj o').tgt = nm

theorem prepare_ok (hso : ∀ l, (setOrder l).Perm l) (hself : Resolves canon c (c.obj self).tgt self)
    (hcache : ∀ t b, cache.get (.pair t b) = none)
    (h : prepare canon c setOrder lim cache self = .ok (objs, ds, cache')) :
    Prepared canon c self objs ds := by
  unfold prepare at h
  simp only [bind, Except.bind] at h
  split at h
  · cases h
  · rename_i p hp
    obtain ⟨names, ca⟩ := p
    simp only at h
    split at h
    · cases h
    · rename_i os hos
      split at h
      · cases h
      · rename_i ds' hds
        cases h
        obtain ⟨_, _, hmem⟩ := closure_spec lim cache _ _ true names hcache hp
        have hmem' : ∀ x, x ∈ names ↔ ReflTransGen (NameDep canon c) (c.obj self).tgt x := by
          intro x
          rw [hmem, reflTransGen_iff_eq_or_transGen]
          simp only [true_and]
          exact or_comm
        obtain ⟨cn1, cn2⟩ := closure_names hself
        refine ⟨(hso _).nodup_iff.2 (nodup_mkset _), ?_, (mapM_index hds).1, ?_⟩
        · intro o
          rw [(hso _).mem_iff, mem_mkset, mem_deplist (mapM_get.1 hos)]
          constructor
          · rintro ⟨x, hx, hr⟩
            exact cn1 x o ((hmem' x).1 hx) hr
          · intro ho
            obtain ⟨x, hx, hr⟩ := cn2 o ho
            exact ⟨x, (hmem' x).2 hx, hr⟩
        · intro i o hi
          obtain ⟨t, ht, hmk⟩ := (mapM_index hds).2 i o hi
          exact ⟨t, ht, mkDep_ok hmk⟩

theorem Prepared.registered (P : Prepared canon c self objs ds) (hself : Registered c self) {o : Nat}
    (ho : o ∈ objs) : Registered c o := by
  have := (P.mem o).1 ho
  rcases ReflTransGen.cases_tail this with rfl | ⟨x, _, hx⟩
  · exact hself
  · exact hx.registered

theorem Prepared.denotes (P : Prepared canon c self objs ds) (hc : Consistent c)
    (hself : Registered c self) {j o : Nat} (hj : objs[j]? = some o) (k : Nat) :
    Denotes ds (c.obj o).tgt k ↔ k = j := by
  have key : ∀ k t, ds[k]? = some t → t.name = (c.obj o).tgt → k = j := by
    intro k t hk hn
    have hkl : k < objs.length := by
      rw [← P.len]; exact (List.getElem?_eq_some_iff.1 hk).1
    obtain ⟨t', ht', hn', _⟩ := P.at_ k objs[k] (List.getElem?_eq_getElem hkl)
    rw [hk] at ht'; cases ht'
    rw [hn'] at hn
    have := tgt_inj hc (P.registered hself (List.getElem_mem hkl))
      (P.registered hself (List.mem_of_getElem? hj)) hn
    obtain ⟨hjl, hjo⟩ := List.getElem?_eq_some_iff.1 hj
    rw [← hjo] at this
    exact (P.nodup.getElem_inj_iff).1 this
  constructor
  · rintro ⟨⟨t, ht, hn⟩, _⟩
    exact key k t ht hn
  · rintro rfl
    obtain ⟨t, ht, hn, _⟩ := P.at_ k o hj
    exact ⟨⟨t, ht, hn⟩, fun k' t' h1 h2 => le_of_eq (key k' t' h1 h2)⟩

/-- The solver's dependency relation is the dependency relation of the objects. -/
theorem Prepared.dependsOn (P : Prepared canon c self objs ds) (hc : Consistent c)
    (hself : Registered c self) {i j : Nat} :
    DependsOn ds i j ↔ ∃ o o', objs[i]? = some o ∧ objs[j]? = some o' ∧ ObjDep canon c o o' := by
  constructor
  · rintro ⟨t, nm, ht, hnm, hden⟩
    have hil : i < objs.length := by
      rw [← P.len]; exact (List.getElem?_eq_some_iff.1 ht).1
    have hio := List.getElem?_eq_getElem hil
    obtain ⟨t', ht', _, _, hdeps⟩ := P.at_ i objs[i] hio
    rw [ht] at ht'; cases ht'
    obtain ⟨o', ho', rfl⟩ := (hdeps nm).1 hnm
    have hmem : o' ∈ objs := (P.mem o').2
      (((P.mem objs[i]).1 (List.getElem_mem hil)).tail ho')
    obtain ⟨j', hj'⟩ := List.getElem?_of_mem hmem
    have := (P.denotes hc hself hj' j).1 hden
    subst this
    exact ⟨_, _, hio, hj', ho'⟩
  · rintro ⟨o, o', hi, hj, hd⟩
    obtain ⟨t, ht, _, _, hdeps⟩ := P.at_ i o hi
    exact ⟨t, (c.obj o').tgt, ht, (hdeps _).2 ⟨o', hd, rfl⟩, (P.denotes hc hself hj j).2 rfl⟩

theorem Prepared.closed (P : Prepared canon c self objs ds) : Closed ds := by
  intro t ht nm hnm
  obtain ⟨i, hi⟩ := List.getElem?_of_mem ht
  have hil : i < objs.length := by
    rw [← P.len]; exact (List.getElem?_eq_some_iff.1 hi).1
  have hio := List.getElem?_eq_getElem hil
  obtain ⟨t', ht', _, _, hdeps⟩ := P.at_ i objs[i] hio
  rw [hi] at ht'; cases ht'
  obtain ⟨o', ho', rfl⟩ := (hdeps nm).1 hnm
  have hmem : o' ∈ objs := (P.mem o').2
    (((P.mem objs[i]).1 (List.getElem_mem hil)).tail ho')
  obtain ⟨j', hj'⟩ := List.getElem?_of_mem hmem
  obtain ⟨t'', ht'', hn'', _⟩ := P.at_ j' o' hj'
  exact ⟨t'', List.mem_of_getElem? ht'', hn''⟩

theorem Prepared.trans (P : Prepared canon c self objs ds) (hc : Consistent c)
    (hself : Registered c self) {i o : Nat} (hi : objs[i]? = some o) :
    (∀ j, TransGen (DependsOn ds) i j → ∃ o', objs[j]? = some o' ∧ TransGen (ObjDep canon c) o o') ∧
    (∀ o', TransGen (ObjDep canon c) o o' → ∃ j, objs[j]? = some o' ∧ TransGen (DependsOn ds) i j) := by
  constructor
  · intro j hj
    induction hj with
    | single h =>
      obtain ⟨o1, o2, h1, h2, h3⟩ := (P.dependsOn hc hself).1 h
      rw [hi] at h1; cases h1
      exact ⟨o2, h2, .single h3⟩
    | tail _ h ih =>
      obtain ⟨o1, o2, h1, h2, h3⟩ := (P.dependsOn hc hself).1 h
      obtain ⟨o', ho', ht⟩ := ih
      rw [ho'] at h1; cases h1
      exact ⟨o2, h2, ht.tail h3⟩
  · intro o' ho'
    induction ho' with
    | @single b h =>
      have hmem : b ∈ objs := (P.mem b).2
        (((P.mem o).1 (List.mem_of_getElem? hi)).tail h)
      obtain ⟨j, hj⟩ := List.getElem?_of_mem hmem
      exact ⟨j, hj, .single ((P.dependsOn hc hself).2 ⟨o, b, hi, hj, h⟩)⟩
    | @tail y z hy h ih =>
      obtain ⟨jy, hjy, ht⟩ := ih
      have hmem : z ∈ objs := (P.mem z).2
        (((P.mem y).1 (List.mem_of_getElem? hjy)).tail h)
      obtain ⟨j, hj⟩ := List.getElem?_of_mem hmem
      exact ⟨j, hj, ht.tail ((P.dependsOn hc hself).2 ⟨y, z, hjy, hj, h⟩)⟩

theorem Prepared.cyclic (P : Prepared canon c self objs ds) (hc : Consistent c)
    (hself : Registered c self) :
    Cyclic ds ↔ ∃ o, Closure canon c self o ∧ TransGen (ObjDep canon c) o o := by
  constructor
  · rintro ⟨i, hi⟩
    have hil : i < objs.length := by
      have : ∀ j, DependsOn ds i j → i < objs.length := by
        rintro j ⟨t, _, ht, _⟩
        rw [← P.len]; exact (List.getElem?_eq_some_iff.1 ht).1
      rcases TransGen.head'_iff.1 hi with ⟨j, hj, _⟩
      exact this j hj
    have hio := List.getElem?_eq_getElem hil
    obtain ⟨o', ho', ht⟩ := (P.trans hc hself hio).1 i hi
    rw [hio] at ho'; cases ho'
    exact ⟨_, (P.mem _).1 (List.getElem_mem hil), ht⟩
  · rintro ⟨o, ho, ht⟩
    obtain ⟨i, hi⟩ := List.getElem?_of_mem ((P.mem o).2 ho)
    obtain ⟨j, hj, ht'⟩ := (P.trans hc hself hi).2 o ht
    have : i = j := by
      obtain ⟨h1, h1'⟩ := List.getElem?_eq_some_iff.1 hi
      obtain ⟨h2, h2'⟩ := List.getElem?_eq_some_iff.1 hj
      exact (P.nodup.getElem_inj_iff).1 (h1'.trans h2'.symm)
    subst this
    exact ⟨i, ht'⟩

theorem recurseUpdate_ok {rt : Option (Option Int)} {threads : Option Int} {g : Solver.Graph} {n : Nat}
    (h : recurseUpdate canon c setOrder order lim cache rt self threads = .ok (objs, ds, g, n)) :
    ∃ cache', prepare canon c setOrder lim cache self = .ok (objs, ds, cache') ∧
      Solver.construct order lim ds = .ok g ∧ ∃ k, threadCount rt threads = some k ∧ n = k.toNat := by
  unfold recurseUpdate at h
  simp only [bind, Except.bind] at h
  split at h
  · cases h
  · rename_i p hp
    obtain ⟨objs', ds', cache'⟩ := p
    simp only at h
    split at h
    · cases h
    · rename_i q hq
      obtain ⟨g', n'⟩ := q
      cases h
      refine ⟨cache', hp, ?_⟩
      unfold mkSolver at hq
      split at hq
      · cases hq
      · rename_i k hk
        split at hq
        · cases hq
        · rename_i g' hg
          cases hq
          exact ⟨hg, k, hk, rfl⟩

/-! ### C25, C26 -/

theorem resolves_self (hc : Consistent c) (hself : Registered c self) :
    Resolves canon c (c.obj self).tgt self := by
  obtain ⟨n, hn⟩ := hself
  exact Or.inl (hc _ _ hn)

theorem accepted_of_consistent (hc : Consistent c)
    (hso : ∀ l, (setOrder l).Perm l) (ho : IsOrder order)
    (hself : Registered c self)
    (hreg : AllRegistered canon c (c.obj self).tgt)
    (hac : ∀ o, Closure canon c self o → ¬ TransGen (ObjDep canon c) o o)
    (hl : (allDeps c).length + 1 < lim) (hl' : c.targets.length ≤ lim)
    (rt : Option (Option Int)) (threads : Option Int) (k : Int) (hk : threadCount rt threads = some k) :
    ∃ objs ds g, recurseUpdate canon c setOrder order lim [] rt self threads =
      .ok (objs, ds, g, k.toNat) := by
  obtain ⟨names, ca, hnames⟩ := ((C17_closure canon c lim (c.obj self).tgt true).2 hl).1 hreg
  have hspec := closure_spec lim [] _ _ true names (by simp) hnames
  have hmem' : ∀ x, x ∈ names ↔ ReflTransGen (NameDep canon c) (c.obj self).tgt x := by
    intro x
    rw [hspec.2.2, reflTransGen_iff_eq_or_transGen]
    simp only [true_and]
    exact or_comm
  obtain ⟨os, hos⟩ := mapM_total (f := get canon c) (l := names) (by
    intro x hx
    obtain ⟨o, ho⟩ := hreg x ((hmem' x).1 hx)
    exact ⟨o, get_ok.2 ho⟩)
  obtain ⟨ds, hds⟩ := mapM_total (f := mkDep canon c) (l := setOrder (mkset os)) (by
    intro o hoo
    rw [(hso _).mem_iff, mem_mkset, mem_deplist (mapM_get.1 hos)] at hoo
    obtain ⟨x, hx, hr⟩ := hoo
    unfold mkDep
    obtain ⟨dd, hdd⟩ := mapM_total (f := fun d => do
        let o' ← get canon c d
        Except.ok (c.obj o').tgt) (l := (c.obj o).deps) (by
      intro d hd
      obtain ⟨o', ho'⟩ := hreg d (((hmem' x).1 hx).tail ⟨o, hr, hd⟩)
      exact ⟨(c.obj o').tgt, by simp only [bind, Except.bind, get_ok.2 ho']⟩)
    refine ⟨⟨(c.obj o).tgt, dd⟩, ?_⟩
    simp only [bind, Except.bind] at hdd ⊢
    rw [hdd])
  have hprep : prepare canon c setOrder lim [] self = .ok (setOrder (mkset os), ds, ca) := by
    unfold prepare
    simp only [bind, Except.bind, hnames, hos, hds]
  have P := prepare_ok hso (resolves_self hc hself) (by simp) hprep
  have hne : ds ≠ [] := by
    intro e
    have h1 := (P.mem self).2 .refl
    have h2 := P.len
    rw [e] at h2
    rw [List.length_eq_zero_iff.1 h2.symm] at h1
    cases h1
  have hlen : ds.length ≤ lim := by
    rw [P.len]
    have : ∀ x ∈ setOrder (mkset os), x ∈ c.targets.map (·.2) := by
      intro x hx
      obtain ⟨n, h⟩ := P.registered hself hx
      exact List.mem_map.2 ⟨_, Dict.mem_of_get h, rfl⟩
    have := (P.nodup.subperm this).length_le
    simp at this
    omega
  obtain ⟨g, hg⟩ := (Solver.C11_accepts ho
    (Solver.depthWithin_of_length hlen)).2 ⟨hne, P.closed, by
      rw [P.cyclic hc hself]
      rintro ⟨o, h1, h2⟩
      exact hac o h1 h2⟩
  refine ⟨setOrder (mkset os), ds, g, ?_⟩
  unfold recurseUpdate
  simp only [bind, Except.bind, hprep, mkSolver, hk, hg]

/-- C25: if every target of the closure of `self` is registered and the closure is acyclic, then
(for every iteration order of the sets, every spelling of the dependencies and any recursion limit
above the size of the registry) the solver accepts the graph and `recurse_update` gets to the point
where the workers start. -/
theorem C25_accepted (ops : List Op) (hre : NoReRegistration ops)
    (hso : ∀ l, (setOrder l).Perm l) (ho : IsOrder order)
    (hself : Registered (runOps canon Reg.empty ops) self)
    (hreg : AllRegistered canon (runOps canon Reg.empty ops) ((runOps canon Reg.empty ops).obj self).tgt)
    (hac : ∀ o, Closure canon (runOps canon Reg.empty ops) self o →
      ¬ TransGen (ObjDep canon (runOps canon Reg.empty ops)) o o)
    (hl : (allDeps (runOps canon Reg.empty ops)).length + 1 < lim)
    (hl' : (runOps canon Reg.empty ops).targets.length ≤ lim)
    (rt : Option (Option Int)) (threads : Option Int) (k : Int) (hk : threadCount rt threads = some k) :
    ∃ objs ds g, recurseUpdate canon (runOps canon Reg.empty ops) setOrder order lim [] rt self threads =
      .ok (objs, ds, g, k.toNat) :=
  accepted_of_consistent (consistent_runOps ops hre) hso ho hself hreg hac hl hl' rt threads k hk

/-- the chain c -> b -> a of `chainOps`, built by one thread -/
theorem chain_prepared : recurseUpdate id (runOps id Reg.empty chainOps) id Solver.idOrder 10 [] none 0
    (some 1) = .ok ([2, 1, 0], [⟨"a", []⟩, ⟨"b", ["a"]⟩, ⟨"c", ["b"]⟩],
      ⟨3, fun i => ((([⟨"a", []⟩, ⟨"b", ["a"]⟩, ⟨"c", ["b"]⟩] : List DTarget)[i]?).map
        (fun t => t.deps.length)).getD 0,
       fun i => (Dict.get ([(0, [1]), (1, [2]), (2, [])] : Dict Nat (List Nat)) i).getD [], [0]⟩, 1) := rfl

/-- Non-vacuity of C25. -/
example : NoReRegistration chainOps ∧ Registered (runOps id Reg.empty chainOps) 0 ∧
    AllRegistered id (runOps id Reg.empty chainOps) "c" := by
  refine ⟨by unfold NoReRegistration; decide, ⟨"c", rfl⟩, ?_⟩
  have h : dependsAsSet id (runOps id Reg.empty chainOps) 10 [] "c" true =
    .ok (["a", "b", "c"], [(.plain "c", ["a", "b", "c"])]) := rfl
  exact (closure_spec 10 [] _ "c" true _ (by simp) h).2.1

/-- C26: a cycle in the closure makes `recurse_update` raise before the workers start, for every
recursion limit, set order and thread count. -/
theorem C26_cyclic_runs_nothing (ops : List Op) (hre : NoReRegistration ops)
    (hso : ∀ l, (setOrder l).Perm l) (ho : IsOrder order)
    (hcache : ∀ t b, cache.get (.pair t b) = none)
    (hself : Registered (runOps canon Reg.empty ops) self)
    (hcy : ∃ o, Closure canon (runOps canon Reg.empty ops) self o ∧
      TransGen (ObjDep canon (runOps canon Reg.empty ops)) o o)
    (rt : Option (Option Int)) (threads : Option Int) :
    ∃ e, recurseUpdate canon (runOps canon Reg.empty ops) setOrder order lim cache rt self threads =
      .error e := by
  have hc := consistent_runOps (canon := canon) ops hre
  generalize runOps canon Reg.empty ops = c at *
  cases h : recurseUpdate canon c setOrder order lim cache rt self threads with
  | error e => exact ⟨e, rfl⟩
  | ok p =>
    exfalso
    obtain ⟨objs, ds, g, n⟩ := p
    obtain ⟨cache', hp, hg, _⟩ := recurseUpdate_ok h
    have P := prepare_ok hso (resolves_self hc hself) hcache hp
    exact (Solver.accepted ho hg).2.2.1 ((P.cyclic hc hself).2 hcy)

example : NoReRegistration cycleOps ∧ Registered (runOps id Reg.empty cycleOps) 0 ∧
    Closure id (runOps id Reg.empty cycleOps) 0 0 ∧
    TransGen (ObjDep id (runOps id Reg.empty cycleOps)) 0 0 ∧
    (recurseUpdate id (runOps id Reg.empty cycleOps) id Solver.idOrder 10 [] none 0 (some 1)).map
      (fun _ => ()) = .error (.solver .noRoot) :=
  ⟨by unfold NoReRegistration; decide, ⟨"a", rfl⟩, .refl, cycle_dep, rfl⟩

/-! ### C24 -/

theorem updateCalls_eq (c : Reg) (need : Nat → Option Bool) (objs : List Nat) (tr : List Ev) :
    updateCalls c need objs tr = (Solver.starts tr).filterMap (fun i =>
      match objs[i]? with
      | some o => if work c need o = .calls then some o else none
      | none => none) := by
  unfold updateCalls Solver.starts
  rw [List.filterMap_filterMap]
  congr 1
  funext e
  cases e <;> rfl

theorem mem_updateCalls {c : Reg} {need : Nat → Option Bool} {objs : List Nat} {tr : List Ev} {o : Nat} :
    o ∈ updateCalls c need objs tr ↔
      work c need o = .calls ∧ ∃ w i, Ev.start w i ∈ tr ∧ objs[i]? = some o := by
  rw [updateCalls_eq, List.mem_filterMap]
  constructor
  · rintro ⟨i, hi, h⟩
    obtain ⟨w, hw⟩ := Solver.mem_starts.1 hi
    split at h
    · rename_i o' ho'
      split at h
      · cases h; rename_i hw'; exact ⟨hw', w, i, hw, ho'⟩
      · cases h
    · cases h
  · rintro ⟨hw, w, i, hs, ho⟩
    exact ⟨i, Solver.mem_starts.2 ⟨w, hs⟩, by simp [ho, hw]⟩

/-- C24: a successful `recurse_update` on `self` calls `update` exactly once for each target of the
closure that is stale, for no other target, and each only after everything it depends on was
brought up to date. -/
theorem C24_exactly_the_stale (ops : List Op) (hre : NoReRegistration ops)
    (hso : ∀ l, (setOrder l).Perm l) (ho : IsOrder order)
    (hcache : ∀ t b, cache.get (.pair t b) = none)
    (updIf : Nat → Except Err Bool) (lim' : Nat) (m m' : Marks)
    (hco : Coherent canon (runOps canon Reg.empty ops) m.cached)
    (heval : updateNeeds canon (runOps canon Reg.empty ops) updIf lim' m = .ok m')
    (hself : Registered (runOps canon Reg.empty ops) self)
    (rt : Option (Option Int)) (threads : Option Int) (g : Solver.Graph) (n : Nat)
    (h : recurseUpdate canon (runOps canon Reg.empty ops) setOrder order lim cache rt self threads =
      .ok (objs, ds, g, n))
    (tr : List Ev) (s : Solver.St) (hx : BuildExec (runOps canon Reg.empty ops) m'.need objs g n tr s)
    (hret : s.returned) (hv : s.verdict = true) :
    let c := runOps canon Reg.empty ops
    let calls := updateCalls c m'.need objs tr
    calls.Nodup ∧
    (∀ o, o ∈ calls ↔ Closure canon c self o ∧ Stale canon c updIf o) ∧
    (∀ pre post w i o o', tr = pre ++ Ev.start w i :: post → objs[i]? = some o →
      TransGen (ObjDep canon c) o o' → ∃ w' j, objs[j]? = some o' ∧ Ev.finish w' j .ok ∈ pre) := by
  have hc := consistent_runOps (canon := canon) ops hre
  have hn := nodup_runOps (canon := canon) ops Reg.empty (by simp [Reg.empty, Dict.keys])
  generalize runOps canon Reg.empty ops = c at *
  obtain ⟨cache', hp, hg, _⟩ := recurseUpdate_ok h
  have P := prepare_ok hso (resolves_self hc hself) hcache hp
  obtain ⟨_, hneed⟩ := updateNeeds_ok hn hco heval
  obtain ⟨hall, hok, _⟩ := Solver.C03_true_means_all_done ho hg hx.exec hret hv
  have hupd : ∀ o ∈ objs, (c.obj o).upd = true := by
    intro o hoo
    obtain ⟨i, hi⟩ := List.getElem?_of_mem hoo
    have hil : i < ds.length := by rw [P.len]; exact (List.getElem?_eq_some_iff.1 hi).1
    obtain ⟨w, hw⟩ := (hall i hil).2
    by_contra hu
    have hwk : work c m'.need o = .raises := by simp [work, hu]
    have := hx.raises w i .ok o hw hi hwk
    cases this
  have hwork : ∀ o ∈ objs, work c m'.need o = .calls ↔ Stale canon c updIf o := by
    intro o hoo
    have hu := hupd o hoo
    obtain ⟨b, hb, ha, _⟩ := hneed o (P.registered hself hoo) hu
    rw [← ha]
    cases b <;> simp [work, hu, hb]
  refine ⟨?_, ?_, ?_⟩
  · rw [updateCalls_eq]
    refine List.Nodup.filterMap ?_ ?_
    · intro i j o hi hj
      have key : ∀ i : Nat, o ∈ (match objs[i]? with
          | some o => if work c m'.need o = .calls then some o else none
          | none => none : Option Nat) → objs[i]? = some o := by
        intro i hi
        split at hi
        · rename_i o' ho'
          split at hi
          · rw [ho', ← Option.mem_def]; exact hi
          · cases hi
        · cases hi
      obtain ⟨h1, h1'⟩ := List.getElem?_eq_some_iff.1 (key i hi)
      obtain ⟨h2, h2'⟩ := List.getElem?_eq_some_iff.1 (key j hj)
      exact (P.nodup.getElem_inj_iff).1 (h1'.trans h2'.symm)
    · obtain ⟨_, _, _, _, dep, hwf, _⟩ := Solver.accepted ho hg
      exact (Solver.inv_of_exec hwf hx.exec).startsNodup
  · intro o
    rw [mem_updateCalls]
    constructor
    · rintro ⟨hw, w, i, _, hi⟩
      have hoo := List.mem_of_getElem? hi
      exact ⟨(P.mem o).1 hoo, (hwork o hoo).1 hw⟩
    · rintro ⟨hcl, hst⟩
      have hoo := (P.mem o).2 hcl
      obtain ⟨i, hi⟩ := List.getElem?_of_mem hoo
      have hil : i < ds.length := by rw [P.len]; exact (List.getElem?_eq_some_iff.1 hi).1
      obtain ⟨w, hw⟩ := (hall i hil).1
      exact ⟨(hwork o hoo).2 hst, w, i, hw, hi⟩
  · intro pre post w i o o' htr hi ht
    obtain ⟨j, hj, htd⟩ := (P.trans hc hself hi).2 o' ht
    have : ∀ k, TransGen (DependsOn ds) i k → ∃ w', Ev.finish w' k .ok ∈ pre := by
      intro k hk
      obtain ⟨s1, _, h1, _, _⟩ := hx.exec.at pre _ post htr
      induction hk with
      | single hd => exact Solver.C01_dependencies_first ho hg hx.exec pre post w i _ htr hd
      | @tail y z _ hyz ih =>
        obtain ⟨w', hw'⟩ := ih
        obtain ⟨a, b, hab⟩ := List.append_of_mem hw'
        obtain ⟨w2, hw2⟩ := (Solver.C02_at_most_once ho hg h1 y).2.2 a b w' .ok hab
        have hst : Ev.start w2 y ∈ pre := by rw [hab]; simp [hw2]
        obtain ⟨p, q, hpq⟩ := List.append_of_mem hst
        obtain ⟨w3, hw3⟩ := Solver.C01_dependencies_first ho hg h1 p q w2 y z hpq hyz
        exact ⟨w3, by rw [hpq]; simp [hw3]⟩
    obtain ⟨w', hw'⟩ := this j htd
    exact ⟨w', j, hj, hw'⟩

def chainTr : List Ev :=
  [.start 0 0, .finish 0 0 .ok, .start 0 1, .finish 0 1 .ok, .start 0 2, .finish 0 2 .ok]

/-- Non-vacuity: a complete build of the chain in which only `b` is stale: `update` is called for
`b` and then `c`, not for `a`. -/
theorem chain_build : ∃ (m' : Marks) (objs : List Nat) (ds : List DTarget) (g : Solver.Graph) (n : Nat)
    (s : Solver.St),
    updateNeeds id (runOps id Reg.empty chainOps) chainUpd 10 noMarks = .ok m' ∧
    recurseUpdate id (runOps id Reg.empty chainOps) id Solver.idOrder 10 [] none 0 (some 1) =
      .ok (objs, ds, g, n) ∧
    BuildExec (runOps id Reg.empty chainOps) m'.need objs g n chainTr s ∧ s.returned ∧
    s.verdict = true ∧
    updateCalls (runOps id Reg.empty chainOps) m'.need objs chainTr = [1, 0] := by
  refine ⟨_, _, _, _, _, _, rfl, chain_prepared, ⟨Solver.exec_of_run chainTr [] _ _ .init rfl, ?_, ?_⟩,
    rfl, rfl, by decide +kernel⟩
  · intro w i r o hf ho hw
    exfalso
    have : o = 2 ∨ o = 1 ∨ o = 0 := by
      have h2 := List.mem_of_getElem? ho; simpa only [List.mem_cons, List.not_mem_nil, or_false] using h2
    rcases this with rfl | rfl | rfl <;> revert hw <;> decide +kernel
  · intro w i r o hf ho hw
    simp only [chainTr, List.mem_cons, reduceCtorEq, Ev.finish.injEq, false_or, List.not_mem_nil,
      or_false] at hf
    rcases hf with h | h | h <;> exact h.2.2

/-! ### C29, C71 (routines) -/

/-- C29: invoking a routine with arguments `a` calls its function exactly once, with exactly these
arguments, if the build succeeds (its `update_if` being true, as it is by default); this happens
after everything it depends on was brought up to date (last part of C24). -/
theorem C29_routine_args (ops : List Op) (hre : NoReRegistration ops)
    (hso : ∀ l, (setOrder l).Perm l) (ho : IsOrder order)
    (hcache : ∀ t b, cache.get (.pair t b) = none)
    (updIf : Nat → Except Err Bool) (lim' : Nat) (m m' : Marks)
    (hco : Coherent canon (runOps canon Reg.empty ops) m.cached)
    (heval : updateNeeds canon (runOps canon Reg.empty ops) updIf lim' m = .ok m')
    (hself : Registered (runOps canon Reg.empty ops) self) (hup : updIf self = .ok true)
    (isRoutine : Nat → Bool) (hrt : isRoutine self = true)
    (rt : Option (Option Int)) (args args' : Nat → List String) (a : List String)
    (g : Solver.Graph) (n : Nat)
    (h : invokeRoutine canon (runOps canon Reg.empty ops) setOrder order lim cache rt args self a =
      (args', .ok (objs, ds, g, n)))
    (tr : List Ev) (s : Solver.St) (hx : BuildExec (runOps canon Reg.empty ops) m'.need objs g n tr s)
    (hret : s.returned) (hv : s.verdict = true) :
    let c := runOps canon Reg.empty ops
    (routineCalls isRoutine args' c m'.need objs tr).filter (fun p => p.1 = self) = [(self, a)] ∧
    (∀ pre post w i o', tr = pre ++ Ev.start w i :: post → objs[i]? = some self →
      TransGen (ObjDep canon c) self o' → ∃ w' j, objs[j]? = some o' ∧ Ev.finish w' j .ok ∈ pre) := by
  unfold invokeRoutine at h
  simp only [Prod.mk.injEq] at h
  obtain ⟨rfl, h⟩ := h
  obtain ⟨h1, h2, h3⟩ := C24_exactly_the_stale ops hre hso ho hcache updIf lim' m m' hco heval hself rt
    (some 1) g n h tr s hx hret hv
  refine ⟨?_, fun pre post w i o' htr hi ht => h3 pre post w i self o' htr hi ht⟩
  have hmem := (h2 self).2 ⟨.refl, self, .refl, hup⟩
  unfold routineCalls
  rw [List.filter_map]
  generalize updateCalls (runOps canon Reg.empty ops) m'.need objs tr = calls at *
  have : ((calls.filter isRoutine).filter ((fun p : Nat × List String => decide (p.1 = self)) ∘
      fun o => (o, setArgs args self a o))) = [self] := by
    have hnd : ((calls.filter isRoutine).filter ((fun p : Nat × List String => decide (p.1 = self)) ∘
      fun o => (o, setArgs args self a o))).Nodup := (h1.filter _).filter _
    have hm : ∀ x, x ∈ ((calls.filter isRoutine).filter
        ((fun p : Nat × List String => decide (p.1 = self)) ∘
          fun o => (o, setArgs args self a o))) ↔ x ∈ [self] := by
      intro x
      simp only [List.mem_filter, Function.comp, decide_eq_true_eq, List.mem_singleton]
      constructor
      · rintro ⟨_, h⟩; exact h
      · rintro rfl; exact ⟨⟨hmem, hrt⟩, rfl⟩
    exact List.perm_singleton.1 ((List.perm_ext_iff_of_nodup hnd (by simp)).2 hm)
  rw [this]
  simp [setArgs]

/-- Non-vacuity: invoking `c` of the chain as a routine (all three stale). -/
example : ∃ (m' : Marks) (args' : Nat → List String) (objs : List Nat) (ds : List DTarget)
    (g : Solver.Graph) (n : Nat) (s : Solver.St),
    updateNeeds id (runOps id Reg.empty chainOps) (fun _ => .ok true) 10 noMarks = .ok m' ∧
    invokeRoutine id (runOps id Reg.empty chainOps) id Solver.idOrder 10 [] none (fun _ => []) 0
      ["x", "y"] = (args', .ok (objs, ds, g, n)) ∧
    BuildExec (runOps id Reg.empty chainOps) m'.need objs g n chainTr s ∧ s.returned ∧
    s.verdict = true ∧
    routineCalls (fun _ => true) args' (runOps id Reg.empty chainOps) m'.need objs chainTr =
      [(2, []), (1, []), (0, ["x", "y"])] := by
  refine ⟨_, _, _, _, _, _, _, rfl,
    congrArg (Prod.mk (setArgs (fun _ => []) 0 ["x", "y"])) chain_prepared, ⟨Solver.exec_of_run chainTr [] _ _ .init rfl, ?_, ?_⟩,
    rfl, rfl, by decide +kernel⟩
  · intro w i r o hf ho hw
    exfalso
    have : o = 2 ∨ o = 1 ∨ o = 0 := by
      have h2 := List.mem_of_getElem? ho; simpa only [List.mem_cons, List.not_mem_nil, or_false] using h2
    rcases this with rfl | rfl | rfl <;> revert hw <;> decide +kernel
  · intro w i r o hf ho hw
    exfalso
    have : o = 2 ∨ o = 1 ∨ o = 0 := by
      have h2 := List.mem_of_getElem? ho; simpa only [List.mem_cons, List.not_mem_nil, or_false] using h2
    rcases this with rfl | rfl | rfl <;> revert hw <;> decide +kernel

/-- The `args` attributes after a history of routine invocations (target, arguments). -/
def argsAfter (hist : List (Nat × List String)) : Nat → List String :=
  hist.foldl (fun args p => setArgs args p.1 p.2) (fun _ => [])

/-- C71 is violated: arguments given to a routine once stay with it.  After `do("a", args=["x"])`,
a build of `c` (whose dependency `a` is) calls the function of `a` with the argument "x" again. -/
theorem C71_violated : ∃ (m' : Marks) (objs : List Nat) (ds : List DTarget)
    (g : Solver.Graph) (n : Nat) (s : Solver.St),
    updateNeeds id (runOps id Reg.empty chainOps) (fun _ => .ok true) 10 noMarks = .ok m' ∧
    recurseUpdate id (runOps id Reg.empty chainOps) id Solver.idOrder 10 [] none 0 (some 1) =
      .ok (objs, ds, g, n) ∧
    BuildExec (runOps id Reg.empty chainOps) m'.need objs g n chainTr s ∧ s.returned ∧
    s.verdict = true ∧
    (2, ["x"]) ∈ routineCalls (fun _ => true) (argsAfter [(2, ["x"])]) (runOps id Reg.empty chainOps)
      m'.need objs chainTr := by
  refine ⟨_, _, _, _, _, _, rfl, chain_prepared, ⟨Solver.exec_of_run chainTr [] _ _ .init rfl, ?_, ?_⟩,
    rfl, rfl, by decide +kernel⟩
  · intro w i r o hf ho hw
    exfalso
    have : o = 2 ∨ o = 1 ∨ o = 0 := by
      have h2 := List.mem_of_getElem? ho; simpa only [List.mem_cons, List.not_mem_nil, or_false] using h2
    rcases this with rfl | rfl | rfl <;> revert hw <;> decide +kernel
  · intro w i r o hf ho hw
    exfalso
    have : o = 2 ∨ o = 1 ∨ o = 0 := by
      have h2 := List.mem_of_getElem? ho; simpa only [List.mem_cons, List.not_mem_nil, or_false] using h2
    rcases this with rfl | rfl | rfl <;> revert hw <;> decide +kernel

/-- C71, what holds: a routine runs with the arguments of its most recent own invocation, and with
none if it was never invoked itself. -/
theorem C71_partial (hist : List (Nat × List String)) (isRoutine : Nat → Bool) (c : Reg)
    (need : Nat → Option Bool) (objs : List Nat) (tr : List Ev) (o : Nat) (a : List String)
    (h : (o, a) ∈ routineCalls isRoutine (argsAfter hist) c need objs tr) :
    ((∀ p ∈ hist, p.1 ≠ o) → a = []) ∧
    (∀ pre post b, hist = pre ++ (o, b) :: post → (∀ p ∈ post, p.1 ≠ o) → a = b) := by
  have ha : a = argsAfter hist o := by
    unfold routineCalls at h
    obtain ⟨o', _, e⟩ := List.mem_map.1 h
    cases e; rfl
  have key : ∀ (post : List (Nat × List String)) (f : Nat → List String), (∀ p ∈ post, p.1 ≠ o) →
      post.foldl (fun args p => setArgs args p.1 p.2) f o = f o := by
    intro post
    induction post with
    | nil => intro f _; rfl
    | cons p post ih =>
      intro f hp
      simp only [List.foldl_cons]
      rw [ih _ (fun q hq => hp q (by simp [hq]))]
      have : o ≠ p.1 := fun e => hp p (by simp) e.symm
      simp [setArgs, this]
  subst ha
  refine ⟨fun hp => key hist _ hp, ?_⟩
  intro pre post b e hp
  subst e
  unfold argsAfter
  rw [List.foldl_append, List.foldl_cons, key post _ hp]
  simp [setArgs]

/-! ### C30 -/

/-- C30 is violated: without a configured thread count the default action of an updatable target
never gets to the workers; when the closure is fine it is a `TypeError`. -/
theorem C30_violated (canon : String → String) (c : Reg) (setOrder : List Nat → List Nat)
    (order : Nat → List Nat → List Nat) (lim : Nat) (cache : Cache) (self : Nat) :
    (∀ r, recurseUpdateGetArgs canon c setOrder order lim cache none self ≠ .ok r) ∧
    ((∃ r, prepare canon c setOrder lim cache self = .ok r) →
      recurseUpdateGetArgs canon c setOrder order lim cache none self = .error .type) := by
  unfold recurseUpdateGetArgs recurseUpdate
  simp only [bind, Except.bind, Option.getD_none, threadCount, mkSolver]
  cases h : prepare canon c setOrder lim cache self with
  | error e => simp
  | ok r => simp

theorem C30_violated_witness :
    recurseUpdateGetArgs id (runOps id Reg.empty chainOps) id Solver.idOrder 10 [] none 0 =
      .error .type := rfl

/-- with a configured thread count the default action is `recurse_update` with that count -/
theorem getArgs_eq (canon : String → String) (c : Reg) (setOrder : List Nat → List Nat)
    (order : Nat → List Nat → List Nat) (lim : Nat) (cache : Cache) (self : Nat) (k : Int)
    (t : Option Int) :
    recurseUpdateGetArgs canon c setOrder order lim cache (some (some k)) self =
      recurseUpdate canon c setOrder order lim cache none self (some k) ∧
    recurseUpdate canon c setOrder order lim cache (some (some k)) self t =
      recurseUpdate canon c setOrder order lim cache none self (some k) := by
  constructor <;> rfl

/-! ### C27 -/

/-- the single references of a (nested) list of references, in order -/
def leaves : Ref → List (String ⊕ Nat)
  | .name n => [.inl n]
  | .obj o => [.inr o]
  | .list l => leavesL l
where
  leavesL : List Ref → List (String ⊕ Nat)
  | [] => []
  | r :: rs => leaves r ++ leavesL rs

/-- what a single `do` has to achieve, in terms of the evaluation and of the actions only -/
inductive DoneOne {σ : Type} (canon : String → String) (core : σ → Reg) (eval : σ → Except Err σ)
    (hasattr : Nat → String → Bool) (act : Call → σ → Except Err σ) (action : Option String)
    (args : List String) : String ⊕ Nat → σ → Except Err σ → Prop
  /-- unknown name: the program terminates -/
  | unknown {n s} : (∀ o, ¬ Resolves canon (core s) n o) →
      DoneOne canon core eval hasattr act action args (.inl n) s (.error .exit)
  /-- the target is found, the evaluation fails -/
  | evalFails {r s o e} : (r = .inr o ∨ ∃ n, r = .inl n ∧ Resolves canon (core s) n o) →
      eval s = .error e → DoneOne canon core eval hasattr act action args r s (.error e)
  /-- the evaluation runs, then exactly the named action (or the default one) of the target -/
  | called {r s s' o a} : (r = .inr o ∨ ∃ n, r = .inl n ∧ Resolves canon (core s) n o) →
      eval s = .ok s' → (action = some a ∨ (action = none ∧ ((core s).obj o).defaultAction = a)) →
      hasattr o a = true → DoneOne canon core eval hasattr act action args r s (act ⟨o, a, args⟩ s')
  /-- no such attribute: nothing but the evaluation happens -/
  | ignored {r s s' o a} : (r = .inr o ∨ ∃ n, r = .inl n ∧ Resolves canon (core s) n o) →
      eval s = .ok s' → (action = some a ∨ (action = none ∧ ((core s).obj o).defaultAction = a)) →
      hasattr o a = false → DoneOne canon core eval hasattr act action args r s (.ok s')

/-- one after the other, until one fails -/
inductive DoneAll {σ : Type} (P : String ⊕ Nat → σ → Except Err σ → Prop) :
    List (String ⊕ Nat) → σ → Except Err σ → Prop
  | nil {s} : DoneAll P [] s (.ok s)
  | fail {r rs s e} : P r s (.error e) → DoneAll P (r :: rs) s (.error e)
  | cons {r rs s s' res} : P r s (.ok s') → DoneAll P rs s' res → DoneAll P (r :: rs) s res

theorem DoneAll.append {σ : Type} {P : String ⊕ Nat → σ → Except Err σ → Prop} {l l' : List (String ⊕ Nat)}
    {s : σ} : (∀ e, DoneAll P l s (.error e) → DoneAll P (l ++ l') s (.error e)) ∧
      (∀ s' res, DoneAll P l s (.ok s') → DoneAll P l' s' res → DoneAll P (l ++ l') s res) := by
  induction l generalizing s with
  | nil =>
    constructor
    · intro e h; cases h
    · intro s' res h h'; cases h; exact h'
  | cons r l ih =>
    constructor
    · intro e h
      cases h with
      | fail h => exact .fail h
      | cons h h' => exact .cons h (ih.1 e h')
    · intro s' res h h'
      cases h with
      | cons h h1 => exact .cons h (ih.2 s' res h1 h')

theorem doneOne_leaf {σ : Type} (canon : String → String) (core : σ → Reg) (eval : σ → Except Err σ)
    (hasattr : Nat → String → Bool) (act : Call → σ → Except Err σ) (action : Option String)
    (args : List String) (r : String ⊕ Nat) (s : σ) (o : Nat)
    (h : r = .inr o ∨ ∃ n, r = .inl n ∧ Resolves canon (core s) n o) :
    DoneOne canon core eval hasattr act action args r s
      (invoke eval hasattr act false ⟨o, action.getD ((core s).obj o).defaultAction, args⟩ s) := by
  have ha : (action = some (action.getD ((core s).obj o).defaultAction) ∨
      (action = none ∧ ((core s).obj o).defaultAction = action.getD ((core s).obj o).defaultAction)) := by
    cases action <;> simp
  unfold invoke
  simp only [bind, Except.bind]
  cases he : eval s with
  | error e => exact .evalFails h he
  | ok s' =>
    simp only
    split
    · rename_i hh; exact .called h he ha hh
    · rename_i hh
      simp only [Bool.false_eq_true, if_false]
      exact .ignored h he ha (by simpa using hh)

/-- C27: `do` performs the referenced targets one after the other; each is resolved in the registry
of that moment, the evaluation precedes the action, exactly the named action (the default action if
none is named) is called with the given arguments, a missing attribute changes nothing further. -/
theorem C27_do {σ : Type} (canon : String → String) (core : σ → Reg) (eval : σ → Except Err σ)
    (hasattr : Nat → String → Bool) (act : Call → σ → Except Err σ) (action : Option String)
    (args : List String) (r : Ref) (s : σ) :
    DoneAll (DoneOne canon core eval hasattr act action args) (leaves r) s
      (doRef canon core eval hasattr act action args r s) := by
  have single : ∀ (r : String ⊕ Nat) (s : σ) (res : Except Err σ),
      DoneOne canon core eval hasattr act action args r s res →
      DoneAll (DoneOne canon core eval hasattr act action args) [r] s res := by
    intro r s res h
    cases res with
    | error e => exact .fail h
    | ok s' => exact .cons h .nil
  have main : ∀ (r : Ref) (s : σ), DoneAll (DoneOne canon core eval hasattr act action args) (leaves r) s
      (doRef canon core eval hasattr act action args r s) := by
    intro r
    induction r using Ref.rec (motive_2 := fun l => ∀ s : σ,
        DoneAll (DoneOne canon core eval hasattr act action args) (leaves.leavesL l) s
          (doRefs canon core eval hasattr act action args l s)) with
    | name n =>
      intro s
      simp only [leaves, doRef, bind, Except.bind]
      cases hg : get canon (core s) n with
      | error e =>
        have : e = .exit := by
          have := (get_err (canon := canon) (c := core s) (n := n)).1 (by
            intro o ho; rw [get_ok.2 ho] at hg; cases hg)
          rw [this] at hg; cases hg; rfl
        subst this
        exact single _ _ _ (.unknown (get_err.2 hg))
      | ok o =>
        exact single _ _ _ (doneOne_leaf canon core eval hasattr act action args _ s o
          (Or.inr ⟨n, rfl, get_ok.1 hg⟩))
    | obj o =>
      intro s
      simp only [leaves, doRef]
      exact single _ _ _ (doneOne_leaf canon core eval hasattr act action args _ s o (Or.inl rfl))
    | list l ih =>
      intro s
      simp only [leaves, doRef]
      exact ih s
    | nil s => simp only [leaves.leavesL, doRefs]; exact .nil
    | cons r rs ih1 ih2 s =>
      simp only [leaves.leavesL, doRefs, bind, Except.bind]
      have h1 := ih1 s
      cases hd : doRef canon core eval hasattr act action args r s with
      | error e => rw [hd] at h1; exact DoneAll.append.1 e h1
      | ok s' => rw [hd] at h1; exact DoneAll.append.2 s' _ h1 (ih2 s')
  exact main r s

/-- Non-vacuity: a nested list; the state is the log of calls. -/
example : doRef (σ := List Call) id (fun _ => runOps id Reg.empty chainOps) .ok
    (fun _ a => a != "nothing") (fun k s => .ok (s ++ [k])) none ["z"]
    (.list [.name "b", .list [.obj 0, .name "a"]]) [] =
    .ok [⟨1, "x", ["z"]⟩, ⟨0, "x", ["z"]⟩, ⟨2, "x", ["z"]⟩] := rfl

/-! ### C72, C73 (registering the same name again) -/

/-- C72 is violated: dependency lists are looked up once per object.  After an evaluation, replacing
a dependency by a stale target of the same name does not make the dependent stale. -/
theorem C72_violated : ∃ (ops : List Op) (ob : Obj) (updIf : Nat → Except Err Bool) (m1 m2 : Marks) (o : Nat),
    let c := runOps id Reg.empty ops
    let c' := runOps id Reg.empty (ops ++ [.add ob])
    updateNeeds id c updIf 10 noMarks = .ok m1 ∧ updateNeeds id c' updIf 10 m1 = .ok m2 ∧
    Registered c' o ∧ (c'.obj o).upd = true ∧ Stale id c' updIf o ∧ m2.need o = some false := by
  refine ⟨[.add ⟨"d", [], true, [], "x"⟩, .add ⟨"t", ["d"], true, [], "x"⟩], ⟨"d", [], true, [], "x"⟩,
    fun o => .ok (o == 2), _, _, 1, rfl, rfl, ⟨"t", rfl⟩, rfl,
    ⟨2, .single ⟨"d", by decide, Or.inl rfl⟩, rfl⟩, rfl⟩

/-- registering a target under a name that is neither registered nor used as a
dependency keeps the remembered dependency lists right -/
theorem coherent_add (ob : Obj) (cached : Nat → Option (List Nat))
    (hold : ∀ o l, cached o = some l → o < c.next)
    (hco : Coherent canon c cached) (hnew : c.targets.get ob.tgt = none)
    (hdep : ∀ o l, cached o = some l → ob.tgt ∉ (c.obj o).deps) :
    Coherent canon (add c ob).1 cached := by
  intro o l h
  have hlt := hold o l h
  have hne : o ≠ c.next := by omega
  have hobj : ((add c ob).1.obj o) = c.obj o := by simp [add, hne]
  rw [hobj]
  have h1 := hco o l h
  have h2 := hdep o l h
  revert h1 h2
  generalize (c.obj o).deps = deps
  clear h
  intro h1 h2
  induction h1 with
  | nil => exact .nil
  | @cons d o' ds l' hr _ ih =>
    simp only [List.mem_cons, not_or] at h2
    refine .cons ?_ (ih h2.2)
    simp only [Resolves, add, Dict.get_set, h2.1, if_false]
    rcases hr with hr | ⟨hr, hr'⟩
    · exact Or.inl hr
    · refine Or.inr ⟨hr, ?_⟩
      split
      · rename_i e; rw [← e, hnew] at hr'; cases hr'
      · exact hr'

example : Coherent id (add (runOps id Reg.empty chainOps) ⟨"new", ["c"], true, [], "x"⟩).1
    (fun o => if o = 0 then some [1] else none) :=
  coherent_add _ _ (by intro o l h; split at h <;> simp_all [runOps, chainOps, add, Reg.empty])
    (by
      intro o l h
      simp only at h
      split at h
      · rename_i e; cases h; subst e; exact .cons (Or.inl rfl) .nil
      · cases h) rfl
    (by
      intro o l h
      split at h
      · rename_i e; subst e; decide
      · cases h)

/-- C73 is violated: registering a name again after one of its other spellings was looked up can make
`recurse_update` reject an acyclic, fully registered closure. -/
theorem C73_violated : ∃ (ops : List Op) (self : Nat),
    let c := runOps toyCanon Reg.empty ops
    Registered c self ∧ AllRegistered toyCanon c (c.obj self).tgt ∧
    (∀ o, Closure toyCanon c self o → ¬ TransGen (ObjDep toyCanon c) o o) ∧
    ∃ e, recurseUpdate toyCanon c id Solver.idOrder 10 [] none self (some 1) = .error e := by
  refine ⟨[.add (fObj []), .has "./f", .add (fObj ["./f"])], 1, ⟨"f", rfl⟩, ?_, ?_, _, rfl⟩
  · have h : dependsAsSet toyCanon (runOps toyCanon Reg.empty
        [.add (fObj []), .has "./f", .add (fObj ["./f"])]) 10 [] "f" true =
      .ok (["./f", "f"], [(.plain "f", ["./f", "f"])]) := rfl
    exact (closure_spec 10 [] _ "f" true _ (by simp) h).2.1
  · have hdep : ∀ o o', ObjDep toyCanon (runOps toyCanon Reg.empty
        [.add (fObj []), .has "./f", .add (fObj ["./f"])]) o o' → o = 1 ∧ o' = 0 := by
      rintro o o' ⟨d, hd, hr⟩
      have h1 : o = 1 ∧ d = "./f" := by
        have hobj : (runOps toyCanon Reg.empty
            [.add (fObj []), .has "./f", .add (fObj ["./f"])]).obj o =
            if o = 1 then fObj ["./f"] else if o = 0 then fObj [] else Reg.empty.obj o := rfl
        rw [hobj] at hd
        split at hd
        · rename_i e
          exact ⟨e, by simpa [fObj] using hd⟩
        · split at hd <;> simp [fObj, Reg.empty] at hd
      obtain ⟨rfl, rfl⟩ := h1
      refine ⟨rfl, ?_⟩
      have : Resolves toyCanon (runOps toyCanon Reg.empty
        [.add (fObj []), .has "./f", .add (fObj ["./f"])]) "./f" 0 := Or.inl rfl
      exact hr.unique this
    intro o _ ht
    rcases TransGen.head'_iff.1 ht with ⟨x, hx, hxo⟩
    obtain ⟨rfl, rfl⟩ := hdep _ _ hx
    rcases ReflTransGen.cases_head hxo with h | ⟨y, hy, _⟩
    · cases h
    · have := (hdep _ _ hy).1
      cases this

/-- C73, what holds: as long as no other spelling was looked up (only registrations in the history),
names may be registered again and again: the closure is accepted. -/
theorem C73_partial (obs : List Obj) (hso : ∀ l, (setOrder l).Perm l) (ho : IsOrder order)
    (hself : Registered (runOps canon Reg.empty (obs.map .add)) self)
    (hreg : AllRegistered canon (runOps canon Reg.empty (obs.map .add))
      ((runOps canon Reg.empty (obs.map .add)).obj self).tgt)
    (hac : ∀ o, Closure canon (runOps canon Reg.empty (obs.map .add)) self o →
      ¬ TransGen (ObjDep canon (runOps canon Reg.empty (obs.map .add))) o o)
    (hl : (allDeps (runOps canon Reg.empty (obs.map .add))).length + 1 < lim)
    (hl' : (runOps canon Reg.empty (obs.map .add)).targets.length ≤ lim)
    (rt : Option (Option Int)) (threads : Option Int) (k : Int) (hk : threadCount rt threads = some k) :
    ∃ objs ds g, recurseUpdate canon (runOps canon Reg.empty (obs.map .add)) setOrder order lim [] rt self
      threads = .ok (objs, ds, g, k.toNat) := by
  have key : ∀ (obs : List Obj) (n : String) (o : Nat),
      (runOps canon Reg.empty (obs.map .add)).targets.get n = some o →
      ((runOps canon Reg.empty (obs.map .add)).obj o).tgt = n := by
    intro obs
    induction obs using List.reverseRecOn with
    | nil => intro n o h; simp [runOps, Reg.empty] at h
    | append_singleton obs ob ih =>
      intro n o h
      have hf := fresh_runOps (canon := canon) (obs.map .add) Reg.empty (by simp [Reg.empty])
      rw [List.map_append, runOps_append] at h ⊢
      simp only [List.map_cons, List.map_nil, runOps, add, Dict.get_set] at h ⊢
      split at h
      · rename_i e; cases h; simpa using e
      · have := hf n o h
        have ho : o ≠ (runOps canon Reg.empty (obs.map .add)).next := by omega
        simp only [ho, if_false]
        exact ih n o h
  refine accepted_of_consistent (fun n o h => ?_) hso ho hself hreg hac hl hl' rt threads k hk
  rw [key obs n o h]; exact h

/-- Non-vacuity: "f" registered twice. -/
example : (recurseUpdate id (runOps id Reg.empty ([fObj [], fObj ["g"], ⟨"g", [], true, [], "x"⟩].map .add))
    id Solver.idOrder 10 [] none 1 (some 1)).map (fun r => r.1) = .ok [1, 2] := rfl

end Licant.Core
