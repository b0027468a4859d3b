/-
Projects in another place.  C152.
-/
import Verif.Make.Session

set_option autoImplicit false

namespace Licant.Make
open Licant.Py Licant.Core Relation

variable {α : Type} {P P' : Proj α} {canon canon' σ : String → String}

/-! ### specification -/

/-- the names that lead from `root` to what it depends on -/
inductive LeadsTo (canon : String → String) (c : Reg) (root : String) : String → Prop
  | root : LeadsTo canon c root root
  | dep {n d : String} {o : Nat} : LeadsTo canon c root n → Resolves canon c n o → d ∈ (c.obj o).deps → LeadsTo canon c root d

/-- The target `o'` of the project `P'` is described as the target `o` of `P` is, with paths and names replaced according to `σ`; its command
makes of the files in the new place what the old one makes of those in the old place. -/
def MovedTarget (σ : String → String) (P P' : Proj α) (o o' : Nat) : Prop :=
  P'.path o' = σ (P.path o) ∧ (P'.reg.obj o').deps = (P.reg.obj o).deps.map σ ∧ P'.kind o' = P.kind o ∧
  P'.force o' = P.force o ∧ P'.upd o' = P.upd o ∧ ∀ f, P'.cmd o' f = P.cmd o fun p => f (σ p)

/-- In the project `P'` the target `σ root`, and all that it depends on, is described as `root` is in `P`, with paths and names replaced
according to `σ`.  Both projects may have any other targets. -/
def Moved (σ canon canon' : String → String) (P P' : Proj α) (root : String) : Prop :=
  ∀ n, LeadsTo canon P.reg root n →
    (∀ o, Resolves canon P.reg n o → ∃ o', Resolves canon' P'.reg (σ n) o' ∧ MovedTarget σ P P' o o') ∧
    (∀ o', Resolves canon' P'.reg (σ n) o' → ∃ o, Resolves canon P.reg n o)

/-! ### proofs -/

/-- a name on the way stands for `o`, and the new name for `o'` -/
def Twins (σ canon canon' : String → String) (P P' : Proj α) (root : String) (o o' : Nat) : Prop :=
  ∃ n, LeadsTo canon P.reg root n ∧ Resolves canon P.reg n o ∧ Resolves canon' P'.reg (σ n) o'

section
variable {root : String} {o o' a a' : Nat}

theorem Twins.moved (h : Moved σ canon canon' P P' root) (hp : Twins σ canon canon' P P' root o o') : MovedTarget σ P P' o o' := by
  obtain ⟨n, h1, h2, h3⟩ := hp
  obtain ⟨o1, h4, h5⟩ := (h n h1).1 _ h2
  have := h4.unique h3
  subst this
  exact h5

theorem Twins.dep (h : Moved σ canon canon' P P' root) (hp : Twins σ canon canon' P P' root o o')
    (hd : ObjDep canon P.reg o a) : ∃ a', ObjDep canon' P'.reg o' a' ∧ Twins σ canon canon' P P' root a a' := by
  have hal := hp.moved h
  obtain ⟨n, h1, h2, h3⟩ := hp
  obtain ⟨d, h4, h5⟩ := hd
  have hn := LeadsTo.dep h1 h2 h4
  obtain ⟨a', h6, _⟩ := (h d hn).1 _ h5
  exact ⟨a', ⟨σ d, by rw [hal.2.1]; exact List.mem_map_of_mem h4, h6⟩, d, hn, h5, h6⟩

theorem Twins.dep' (h : Moved σ canon canon' P P' root) (hp : Twins σ canon canon' P P' root o o')
    (hd : ObjDep canon' P'.reg o' a') : ∃ a, ObjDep canon P.reg o a ∧ Twins σ canon canon' P P' root a a' := by
  have hal := hp.moved h
  obtain ⟨n, h1, h2, h3⟩ := hp
  obtain ⟨d', h4, h5⟩ := hd
  rw [hal.2.1] at h4
  obtain ⟨d, hm, rfl⟩ := List.mem_map.1 h4
  have hn := LeadsTo.dep h1 h2 hm
  obtain ⟨a, h6⟩ := (h d hn).2 _ h5
  exact ⟨a, ⟨d, hm, h6⟩, d, hn, h6, h5⟩

theorem Twins.closure (h : Moved σ canon canon' P P' root) (hp : Twins σ canon canon' P P' root o o')
    (hd : Closure canon P.reg o a) : ∃ a', Closure canon' P'.reg o' a' ∧ Twins σ canon canon' P P' root a a' := by
  induction hd with
  | refl => exact ⟨o', .refl, hp⟩
  | tail _ hd ih =>
    obtain ⟨b', h1, h2⟩ := ih
    obtain ⟨a', h3, h4⟩ := h2.dep h hd
    exact ⟨a', h1.tail h3, h4⟩

theorem Twins.closure' (h : Moved σ canon canon' P P' root) (hp : Twins σ canon canon' P P' root o o')
    (hd : Closure canon' P'.reg o' a') : ∃ a, Closure canon P.reg o a ∧ Twins σ canon canon' P P' root a a' := by
  induction hd with
  | refl => exact ⟨o, .refl, hp⟩
  | tail _ hd ih =>
    obtain ⟨b', h1, h2⟩ := ih
    obtain ⟨a', h3, h4⟩ := h2.dep' h hd
    exact ⟨a', h1.tail h3, h4⟩

theorem Twins.input (h : Moved σ canon canon' P P' root) (hd : InputOf P canon o a) :
    ∀ {o' : Nat}, Twins σ canon canon' P P' root o o' → ∃ a', InputOf P' canon' o' a' ∧ Twins σ canon canon' P P' root a a' := by
  induction hd with
  | direct h1 h2 =>
    intro o' hp
    obtain ⟨a', h3, h4⟩ := hp.dep h h1
    exact ⟨a', .direct h3 (by rw [(h4.moved h).2.2.1]; exact h2), h4⟩
  | through h1 h2 _ ih =>
    intro o' hp
    obtain ⟨s', h3, h4⟩ := hp.dep h h1
    obtain ⟨a', h5, h6⟩ := ih h4
    exact ⟨a', .through h3 (by rw [(h4.moved h).2.2.1]; exact h2) h5, h6⟩

theorem Twins.input' (h : Moved σ canon canon' P P' root) (hd : InputOf P' canon' o' a') :
    ∀ {o : Nat}, Twins σ canon canon' P P' root o o' → ∃ a, InputOf P canon o a ∧ Twins σ canon canon' P P' root a a' := by
  induction hd with
  | direct h1 h2 =>
    intro o hp
    obtain ⟨a, h3, h4⟩ := hp.dep' h h1
    exact ⟨a, .direct h3 (by rw [← (h4.moved h).2.2.1]; exact h2), h4⟩
  | through h1 h2 _ ih =>
    intro o hp
    obtain ⟨s, h3, h4⟩ := hp.dep' h h1
    obtain ⟨a, h5, h6⟩ := ih h4
    exact ⟨a, .through h3 (by rw [← (h4.moved h).2.2.1]; exact h2) h5, h6⟩

theorem Twins.outOfDate (h : Moved σ canon canon' P P' root) {V V' : String → Info} (hp : Twins σ canon canon' P P' root o o')
    (hV : ∀ x, Closure canon P.reg o x → IsPath P x → V' (σ (P.path x)) = V (P.path x)) :
    OutOfDate P canon V o ↔ OutOfDate P' canon' V' o' := by
  obtain ⟨e1, _, e2, e3, e4, _⟩ := hp.moved h
  have hfile : IsPath P o → ((P.force o = true ∨ (V (P.path o)).exist = false ∨
      ∃ b, InputOf P canon o b ∧ (V (P.path b)).mtime > (V (P.path o)).mtime) ↔
      (P'.force o' = true ∨ (V' (P'.path o')).exist = false ∨
      ∃ b, InputOf P' canon' o' b ∧ (V' (P'.path b)).mtime > (V' (P'.path o')).mtime)) := by
    intro hi
    rw [e1, hV o .refl hi, e3]
    refine or_congr_right (or_congr_right ⟨?_, ?_⟩)
    · rintro ⟨b, h7, h8⟩
      obtain ⟨b', h9, h10⟩ := Twins.input h h7 hp
      refine ⟨b', h9, ?_⟩
      rw [(h10.moved h).1, hV b h7.closure (h7.kind.imp id Or.inl)]
      exact h8
    · rintro ⟨b', h7, h8⟩
      obtain ⟨b, h9, h10⟩ := Twins.input' h h7 hp
      refine ⟨b, h9, ?_⟩
      rw [(h10.moved h).1, hV b h9.closure (h9.kind.imp id Or.inl)] at h8
      exact h8
  unfold OutOfDate
  rw [e2]
  cases hk : P.kind o with
  | file => exact hfile (Or.inl hk)
  | source => exact hfile (Or.inr (Or.inl hk))
  | dir => simp only; rw [e1, hV o .refl (Or.inr (Or.inr hk))]
  | fileset => exact Iff.rfl
  | other => simp only; rw [e4]

theorem Twins.needsWork (h : Moved σ canon canon' P P' root) {V V' : String → Info} (hp : Twins σ canon canon' P P' root o o')
    (hV : ∀ x, Closure canon P.reg o x → IsPath P x → V' (σ (P.path x)) = V (P.path x)) :
    NeedsWork P canon V o ↔ NeedsWork P' canon' V' o' := by
  constructor
  · rintro ⟨a, h1, h2⟩
    obtain ⟨a', h3, h4⟩ := hp.closure h h1
    exact ⟨a', h3, (h4.outOfDate h fun x hx => hV x (ReflTransGen.trans h1 hx)).1 h2⟩
  · rintro ⟨a', h1, h2⟩
    obtain ⟨a, h3, h4⟩ := hp.closure' h h1
    exact ⟨a, h3, (h4.outOfDate h fun x hx => hV x (ReflTransGen.trans h3 hx)).2 h2⟩

end

/-- a property that each target has if the targets it depends on have it -/
theorem Sound.induction (hS : Sound P canon) {root : Nat} (hroot : Registered P.reg root) (p : Nat → Prop)
    (h : ∀ o, Closure canon P.reg root o → (∀ o', TransGen (ObjDep canon P.reg) o o' → p o') → p o) :
    ∀ o, Closure canon P.reg root o → p o := by
  have key : ∀ n, ∀ o, Closure canon P.reg root o → (∀ l : List Nat, (∀ x ∈ o :: l, Registered P.reg x) →
      (o :: l).IsChain (TransGen (ObjDep canon P.reg)) → l.length < n) → p o := by
    intro n
    induction n with
    | zero =>
      intro o ho hl
      exact absurd (hl [] (by simpa using closure_registered hroot ho) (by simp)) (by simp)
    | succ n ih =>
      intro o ho hl
      refine h o ho (fun o' hoo' => ih o' (ReflTransGen.trans ho hoo'.to_reflTransGen) ?_)
      intro l hreg hch
      have := hl (o' :: l) (by
        intro x hx
        rcases List.mem_cons.1 hx with rfl | hx
        · exact closure_registered hroot ho
        · exact hreg x hx) (List.isChain_cons_cons.2 ⟨hoo', hch⟩)
      simpa using this
  intro o ho
  refine key (P.reg.targets.length + 1) o ho ?_
  intro l hl hch
  have hp := List.isChain_iff_pairwise.1 hch
  have h1 : (o :: l).Nodup := hp.imp (fun {a b} h => by rintro rfl; exact hS.acyclic a h)
  have hsub : (o :: l) ⊆ P.reg.targets.map (·.2) := by
    intro x hx
    obtain ⟨n, hn⟩ := hl x hx
    exact List.mem_map.2 ⟨_, Dict.mem_of_get hn, rfl⟩
  have := (List.subperm_of_subset h1 hsub).length_le
  simp only [List.length_cons, List.length_map] at this
  omega

/-- **C152**, what holds: the target `name` of `P`, with all that it depends on, is also described in the project `P'`, in another place,
and the files there are copies of those here, with the same time stamps.  If both are built successfully, the same commands are run, and the files have the same contents
afterwards.  Missing: dependency files of C++ sources, which may contain paths of the old place (`Cxx.C152_violated`). -/
theorem C152_partial (hS : Sound P canon) (hS' : Sound P' canon') {name : String} (hmv : Moved σ canon canon' P P' name)
    {root root' : Nat} (hroot : Resolves canon P.reg name root) (hroot' : Resolves canon' P'.reg (σ name) root')
    (hk : P.kind root ≠ .other) {fs fs' : FS α}
    (hfs : ∀ o, Closure canon P.reg root o → IsPath P o → fs' (σ (P.path o)) = fs (P.path o))
    {cache cache' : FileCache} (hacc : Accurate P fs cache) (hacc' : Accurate P' fs' cache')
    {B : Invocation P canon root fs cache} {B' : Invocation P' canon' root' fs' cache'} {clock clock' : Nat}
    {tr tr' : List (Ev α)} {s s' : St α} (hx : B.Run clock tr s) (hx' : B'.Run clock' tr' s')
    (hs : s.Succeeded) (hs' : s'.Succeeded) :
    (∀ p, (∃ o ∈ B.commands tr, σ (P.path o) = p) ↔ (∃ o ∈ B'.commands tr', P'.path o = p)) ∧
    (Functional P canon → Functional P' canon' → Faithful B clock tr → Faithful B' clock' tr' → Productive B tr → Productive B' tr' →
      ∀ o, Closure canon P.reg root o → P.kind o = .file ∨ P.kind o = .source →
        contents s'.fs (σ (P.path o)) = contents s.fs (P.path o)) := by
  have hr := hroot.registered
  have hr' := hroot'.registered
  have hpr : Twins σ canon canon' P P' name root root' := ⟨name, .root, hroot, hroot'⟩
  have hk' : P'.kind root' ≠ .other := by rw [(hpr.moved hmv).2.2.1]; exact hk
  have c1 := (commands_iff hS hr hk hacc hx).2 hs
  have c2 := (commands_iff hS' hr' hk' hacc' hx').2 hs'
  have hV : ∀ a, Closure canon P.reg root a → IsPath P a → fileinfo fs' (σ (P.path a)) = fileinfo fs (P.path a) := by
    intro a ha hi
    unfold fileinfo
    rw [hfs a ha hi]
  have hcmd : ∀ o o', Closure canon P.reg root o → Closure canon' P'.reg root' o' → Twins σ canon canon' P P' name o o' →
      (o ∈ B.commands tr ↔ o' ∈ B'.commands tr') := by
    intro o o' ho ho' hp
    rw [c1, c2, hp.needsWork hmv fun a ha => hV a (ReflTransGen.trans ho ha), (hp.moved hmv).2.2.1]
    exact ⟨fun h => ⟨ho', h.2⟩, fun h => ⟨ho, h.2⟩⟩
  refine ⟨fun p => ⟨?_, ?_⟩, ?_⟩
  · rintro ⟨o, ho, rfl⟩
    obtain ⟨o', h1, h2⟩ := hpr.closure hmv ((c1 o).1 ho).1
    exact ⟨o', (hcmd o o' ((c1 o).1 ho).1 h1 h2).1 ho, (h2.moved hmv).1⟩
  · rintro ⟨o', ho, rfl⟩
    obtain ⟨o, h1, h2⟩ := hpr.closure' hmv ((c2 o').1 ho).1
    exact ⟨o, (hcmd o o' h1 ((c2 o').1 ho).1 h2).2 ho, (h2.moved hmv).1.symm⟩
  · intro hF hF' hfa hfa' hp hp'
    -- what is written
    have w1 : ∀ o ∈ B.commands tr, Written B tr o := by
      intro o ho
      obtain ⟨i, w, w', hi, _, hf⟩ := Succeeded.finished hS hr hx hs ((c1 o).1 ho).1
      obtain ⟨v, hv⟩ := hp w i o (mem_sched.1 hf) hi ho
      exact ⟨i, v, hv, hi⟩
    have w2 : ∀ o ∈ B'.commands tr', Written B' tr' o := by
      intro o ho
      obtain ⟨i, w, w', hi, _, hf⟩ := Succeeded.finished hS' hr' hx' hs' ((c2 o).1 ho).1
      obtain ⟨v, hv⟩ := hp' w i o (mem_sched.1 hf) hi ho
      exact ⟨i, v, hv, hi⟩
    have u1 : ∀ o, Written B tr o → o ∈ B.commands tr := by
      rintro o ⟨j, v, hm, hj⟩
      obtain ⟨_, x, h1, h2, h3⟩ := write_info hS hr hx j v hm
      rw [hj] at h1; cases h1
      have hcl := B.closure hS hr hj
      exact (c1 o).2 ⟨hcl, h2, (needsWork_congr (closure_registered hr hcl) hacc).1 ((need_closure hS hr hk B hcl).1.1 h3)⟩
    have u2 : ∀ o, Written B' tr' o → o ∈ B'.commands tr' := by
      rintro o ⟨j, v, hm, hj⟩
      obtain ⟨_, x, h1, h2, h3⟩ := write_info hS' hr' hx' j v hm
      rw [hj] at h1; cases h1
      have hcl := B'.closure hS' hr' hj
      exact (c2 o).2 ⟨hcl, h2, (needsWork_congr (closure_registered hr' hcl) hacc').1 ((need_closure hS' hr' hk' B' hcl).1.1 h3)⟩
    refine hS.induction hr _ ?_
    intro o ho ih hko
    obtain ⟨o', ho', hpo⟩ := hpr.closure hmv ho
    obtain ⟨ep, _, e2, _, _, e5⟩ := hpo.moved hmv
    by_cases hc : o ∈ B.commands tr
    · have hc' := (hcmd o o' ho ho' hpo).1 hc
      rw [written_content hS hr hF hx hfa o (w1 o hc), ← ep, written_content hS' hr' hF' hx' hfa' o' (w2 o' hc'), e5]
      congr 1
      exact hF o _ _ fun a ha => ih a ha.trans ha.kind
    · have hc' : o' ∉ B'.commands tr' := fun h => hc ((hcmd o o' ho ho' hpo).2 h)
      unfold contents
      rw [unwritten hS hr hx (closure_registered hr ho) hko (fun h => hc (u1 o h)), ← hfs o ho (hko.imp id Or.inl), ← ep,
        unwritten hS' hr' hx' (closure_registered hr' ho') (by rw [e2]; exact hko) (fun h => hc' (u2 o' h))]

/-! ### a project in two places -/

/-- the project `demo` in the directory `/t` -/
def demoMoved : Proj Nat where
  reg :=
    { targets := [("/t/a.c", 0), ("/t/d", 1), ("/t/d/a.o", 2), ("/t/d/app", 3), ("all", 4)]
      obj := fun
        | 0 => ⟨"/t/a.c", [], true, [], "makefile"⟩
        | 1 => ⟨"/t/d", [], true, [], "makefile"⟩
        | 2 => ⟨"/t/d/a.o", ["/t/a.c", "/t/d"], true, [], "makefile"⟩
        | 3 => ⟨"/t/d/app", ["/t/d/a.o", "/t/d"], true, [], "makefile"⟩
        | 4 => ⟨"all", ["/t/d/app"], true, [], "makefile"⟩
        | _ => ⟨"", [], false, [], "action"⟩
      next := 5 }
  kind := fun
    | 0 => .source
    | 1 => .dir
    | 2 => .file
    | 3 => .file
    | 4 => .fileset
    | _ => .other
  force := fun _ => false
  upd := fun _ => .ok false
  cmd := fun o f => if o = 2 then (f "/t/a.c").getD 0 + 10 else if o = 3 then (f "/t/d/a.o").getD 0 + 100 else 0
  parents := fun _ => []

/-- the files of `demoFs` in `/t` -/
def demoMovedFs : FS Nat := fun p => if p = "/t/a.c" then some ⟨1, some 5⟩ else none

theorem demoMoved_reg_iff {o : Nat} : Registered demoMoved.reg o ↔ o < 5 := by
  constructor
  · rintro ⟨n, hn⟩
    have := Dict.mem_of_get hn
    simp only [demoMoved, List.mem_cons, Prod.mk.injEq, List.not_mem_nil, or_false] at this
    omega
  · intro h
    have : o = 0 ∨ o = 1 ∨ o = 2 ∨ o = 3 ∨ o = 4 := by omega
    rcases this with rfl | rfl | rfl | rfl | rfl
    · exact ⟨"/t/a.c", rfl⟩
    · exact ⟨"/t/d", rfl⟩
    · exact ⟨"/t/d/a.o", rfl⟩
    · exact ⟨"/t/d/app", rfl⟩
    · exact ⟨"all", rfl⟩

theorem demoMoved_resolves {d : String} {o : Nat} (h : Resolves id demoMoved.reg d o) : demoMoved.path o = d ∧ o < 5 := by
  rcases h with h | ⟨h1, h⟩ <;>
  · have := Dict.mem_of_get h
    simp only [demoMoved, List.mem_cons, Prod.mk.injEq, List.not_mem_nil, or_false, id] at this
    rcases this with ⟨rfl, rfl⟩ | ⟨rfl, rfl⟩ | ⟨rfl, rfl⟩ | ⟨rfl, rfl⟩ | ⟨rfl, rfl⟩ <;>
    exact ⟨rfl, by decide⟩

theorem demoMoved_dep {o o' : Nat} : ObjDep id demoMoved.reg o o' ↔
    (o, o') ∈ [(2, 0), (2, 1), (3, 2), (3, 1), (4, 3)] := by
  constructor
  · rintro ⟨d, hd, hr⟩
    obtain ⟨hp, hlt⟩ := demoMoved_resolves hr
    have ho' : o' = 0 ∨ o' = 1 ∨ o' = 2 ∨ o' = 3 ∨ o' = 4 := by omega
    have ho : o = 0 ∨ o = 1 ∨ o = 2 ∨ o = 3 ∨ o = 4 ∨ 4 < o := by omega
    rcases ho with rfl | rfl | rfl | rfl | rfl | ho
    · simp [demoMoved] at hd
    · simp [demoMoved] at hd
    · rcases ho' with rfl | rfl | rfl | rfl | rfl <;> subst hp <;> revert hd <;> decide
    · rcases ho' with rfl | rfl | rfl | rfl | rfl <;> subst hp <;> revert hd <;> decide
    · rcases ho' with rfl | rfl | rfl | rfl | rfl <;> subst hp <;> revert hd <;> decide
    · obtain ⟨k, rfl⟩ : ∃ k, o = k + 5 := ⟨o - 5, by omega⟩
      simp [demoMoved] at hd
  · intro h
    simp only [List.mem_cons, Prod.mk.injEq, List.not_mem_nil, or_false] at h
    rcases h with ⟨rfl, rfl⟩ | ⟨rfl, rfl⟩ | ⟨rfl, rfl⟩ | ⟨rfl, rfl⟩ | ⟨rfl, rfl⟩
    · exact ⟨"/t/a.c", by decide, Or.inl rfl⟩
    · exact ⟨"/t/d", by decide, Or.inl rfl⟩
    · exact ⟨"/t/d/a.o", by decide, Or.inl rfl⟩
    · exact ⟨"/t/d", by decide, Or.inl rfl⟩
    · exact ⟨"/t/d/app", by decide, Or.inl rfl⟩

theorem demoMoved_dep_lt {o o' : Nat} (h : ObjDep id demoMoved.reg o o') : o' < o := by
  rw [demoMoved_dep] at h
  simp only [List.mem_cons, Prod.mk.injEq, List.not_mem_nil, or_false] at h
  omega

theorem demoMoved_trans_lt {o o' : Nat} (h : TransGen (ObjDep id demoMoved.reg) o o') : o' < o := by
  induction h with
  | single h => exact demoMoved_dep_lt h
  | tail _ h ih => exact lt_trans (demoMoved_dep_lt h) ih

theorem demoMoved_sound : Sound demoMoved id where
  nodup := by decide
  consistent := by
    intro n o h
    obtain ⟨h1, h2⟩ := demoMoved_resolves (Or.inl h)
    have : o = 0 ∨ o = 1 ∨ o = 2 ∨ o = 3 ∨ o = 4 := by omega
    rcases this with rfl | rfl | rfl | rfl | rfl <;> rfl
  acyclic := fun o h => lt_irrefl _ (demoMoved_trans_lt h)
  upd := by
    intro o ho _
    have := demoMoved_reg_iff.1 ho
    have : o = 0 ∨ o = 1 ∨ o = 2 ∨ o = 3 ∨ o = 4 := by omega
    rcases this with rfl | rfl | rfl | rfl | rfl <;> rfl
  srcDeps := by
    intro o o' hk h
    rw [demoMoved_dep] at h
    simp only [List.mem_cons, Prod.mk.injEq, List.not_mem_nil, or_false] at h
    rcases h with ⟨rfl, rfl⟩ | ⟨rfl, rfl⟩ | ⟨rfl, rfl⟩ | ⟨rfl, rfl⟩ | ⟨rfl, rfl⟩ <;>
      rcases hk with hk | hk <;> cases hk
  fileDeps := by
    intro o o' _ h
    rw [demoMoved_dep] at h
    simp only [List.mem_cons, Prod.mk.injEq, List.not_mem_nil, or_false] at h
    rcases h with ⟨rfl, rfl⟩ | ⟨rfl, rfl⟩ | ⟨rfl, rfl⟩ | ⟨rfl, rfl⟩ | ⟨rfl, rfl⟩ <;> decide
  ancestors := by intro b a _ _ _ h; cases h

theorem demoMoved_functional : Functional demoMoved id := by
  intro o f f' h
  have key : ∀ o o', ObjDep id demoMoved.reg o o' → demoMoved.kind o' = .file ∨ demoMoved.kind o' = .source →
      (∀ o', InputOf demoMoved id o o' → f (demoMoved.path o') = f' (demoMoved.path o')) →
      f (demoMoved.path o') = f' (demoMoved.path o') := fun o o' h1 h2 h3 => h3 o' (.direct h1 h2)
  show (if o = 2 then (f "/t/a.c").getD 0 + 10 else if o = 3 then (f "/t/d/a.o").getD 0 + 100 else 0) =
    (if o = 2 then (f' "/t/a.c").getD 0 + 10 else if o = 3 then (f' "/t/d/a.o").getD 0 + 100 else 0)
  by_cases h2 : o = 2
  · subst h2
    have : f "/t/a.c" = f' "/t/a.c" := key 2 0 (demoMoved_dep.2 (by decide)) (Or.inr rfl) h
    simp [this]
  · by_cases h3 : o = 3
    · subst h3
      have : f "/t/d/a.o" = f' "/t/d/a.o" := key 3 2 (demoMoved_dep.2 (by decide)) (Or.inl rfl) h
      simp [this]
    · simp [h2, h3]

theorem demoMoved_all : ∀ o, o ∈ [0, 1, 2, 3, 4] ↔ Registered demoMoved.reg o ∧ (demoMoved.reg.obj o).upd = true := by
  intro o
  constructor
  · intro h
    have h5 : o < 5 := by simp only [List.mem_cons, List.not_mem_nil, or_false] at h; omega
    refine ⟨demoMoved_reg_iff.2 h5, ?_⟩
    have : o = 0 ∨ o = 1 ∨ o = 2 ∨ o = 3 ∨ o = 4 := by omega
    rcases this with rfl | rfl | rfl | rfl | rfl <;> rfl
  · rintro ⟨h, _⟩
    have := demoMoved_reg_iff.1 h
    simp only [List.mem_cons, List.not_mem_nil, or_false]
    omega

def demoMovedB : Invocation demoMoved id 4 demoMovedFs [] := .of (lim := 10) (lim' := 10) (n := 1) _ demoMoved_all rfl rfl rfl

/-- the name in `/t`; `all` is not a file -/
def demoMove (n : String) : String := if n = "all" then "all" else "/t/" ++ n

theorem demo_leads {n : String} (h : LeadsTo id demo.reg "all" n) : n ∈ ["a.c", "d", "d/a.o", "d/app", "all"] := by
  induction h with
  | root => decide
  | @dep n d o _ hr hd ih =>
    obtain ⟨h1, h2⟩ := demo_resolves hr
    have : o = 0 ∨ o = 1 ∨ o = 2 ∨ o = 3 ∨ o = 4 := by omega
    rcases this with rfl | rfl | rfl | rfl | rfl <;> revert d <;> decide

theorem demo_moved : Moved demoMove id id demo demoMoved "all" := by
  have ht : ∀ o < 5, MovedTarget demoMove demo demoMoved o o := by
    intro o ho
    have : o = 0 ∨ o = 1 ∨ o = 2 ∨ o = 3 ∨ o = 4 := by omega
    rcases this with rfl | rfl | rfl | rfl | rfl <;>
      exact ⟨by decide, by decide, rfl, rfl, rfl, fun f => rfl⟩
  have hg : ∀ n ∈ ["a.c", "d", "d/a.o", "d/app", "all"],
      demoMoved.reg.targets.get (demoMove n) = demo.reg.targets.get n := by decide
  intro n hn
  have hm := hg n (demo_leads hn)
  refine ⟨fun o ho => ⟨o, ?_, ht o (demo_resolves ho).2⟩, fun o ho => ⟨o, ?_⟩⟩
  · unfold Resolves at ho ⊢
    simp only [id] at ho ⊢
    rw [hm]; exact ho
  · unfold Resolves at ho ⊢
    simp only [id] at ho ⊢
    rw [← hm]; exact ho

/-- a build in `/t`: the targets have other numbers -/
def demoMovedTr : List (Ev Nat) :=
  [.sched (.start 0 0), .sched (.finish 0 0 .ok), .sched (.start 0 1), .sched (.finish 0 1 .ok),
   .sched (.start 0 2), .tick, .write 2 15, .sched (.finish 0 2 .ok),
   .sched (.start 0 3), .write 3 115, .tick, .sched (.finish 0 3 .ok),
   .sched (.start 0 4), .sched (.finish 0 4 .ok)]

/-- Non-vacuity of C152_partial: the sources are copied to `/t` and built in both places. -/
example : ∃ s s', demoB.Run 7 demoTr s ∧ demoMovedB.Run 7 demoMovedTr s' ∧
    (∀ p, (∃ o ∈ demoB.commands demoTr, demoMove (demo.path o) = p) ↔ (∃ o ∈ demoMovedB.commands demoMovedTr, demoMoved.path o = p)) ∧
    contents s'.fs "/t/d/app" = contents s.fs "d/app" ∧ contents s.fs "d/app" = some 115 := by
  obtain ⟨s, h1, h2, h3, h4, h5, _⟩ := demo_build
  have hx : demoMovedB.Run 7 demoMovedTr _ := run_iff.2 rfl
  obtain ⟨c1, c2⟩ := C152_partial demo_sound demoMoved_sound demo_moved (root := 4) (root' := 4) (Or.inl rfl) (Or.inl rfl) (by decide)
    (fs := demoFs) (fs' := demoMovedFs) (by
      intro o ho _
      have := demo_clean_closure ho
      have : o = 0 ∨ o = 1 ∨ o = 2 ∨ o = 3 ∨ o = 4 := by omega
      rcases this with rfl | rfl | rfl | rfl | rfl <;> rfl)
    (accurate_nil _ _) (accurate_nil _ _) h1 hx h2 ⟨rfl, rfl⟩
  exact ⟨s, _, h1, hx, c1, c2 demo_functional demoMoved_functional h3 (faithful_of (by decide +kernel)) h4
    (productive_of (by decide +kernel)) 3 (.single (demo_dep.2 (by decide))) (Or.inl rfl), h5⟩

end Licant.Make
