/-
Targets that are not asked for.  C151.
-/
import Verif.Make.Moved

set_option autoImplicit false

namespace Licant.Make
open Licant.Py Licant.Core Relation

variable {α : Type} {P P' : Proj α} {canon : String → String}

/-! ### specification -/

/-- two targets of two projects that are described in the same way -/
def SameTarget (P P' : Proj α) (o o' : Nat) : Prop :=
  P.reg.obj o = P'.reg.obj o' ∧ P.kind o = P'.kind o' ∧ P.force o = P'.force o' ∧ P.upd o = P'.upd o' ∧ P.cmd o = P'.cmd o'

/-- Two projects describe the target `root`, and all that it depends on, in the same way.  They may have any other targets. -/
def SamePart (canon : String → String) (P P' : Proj α) (root : String) : Prop :=
  ∀ n, LeadsTo canon P.reg root n →
    (∀ o, Resolves canon P.reg n o → ∃ o', Resolves canon P'.reg n o' ∧ SameTarget P P' o o') ∧
    (∀ o', Resolves canon P'.reg n o' → ∃ o, Resolves canon P.reg n o)

/-! ### proofs -/

theorem SameTarget.symm {o o' : Nat} (h : SameTarget P P' o o') : SameTarget P' P o' o :=
  ⟨h.1.symm, h.2.1.symm, h.2.2.1.symm, h.2.2.2.1.symm, h.2.2.2.2.symm⟩

theorem SamePart.names {root n : String} (h : SamePart canon P P' root) (hn : LeadsTo canon P'.reg root n) :
    LeadsTo canon P.reg root n := by
  induction hn with
  | root => exact .root
  | @dep n d o' _ hr hd ih =>
    obtain ⟨o, ho⟩ := (h _ ih).2 _ hr
    obtain ⟨o1, h1, h2⟩ := (h _ ih).1 _ ho
    have := h1.unique hr
    subst this
    exact .dep ih ho (by rw [h2.1]; exact hd)

theorem SamePart.symm {root : String} (h : SamePart canon P P' root) : SamePart canon P' P root := by
  intro n hn
  have hn' := h.names hn
  refine ⟨fun o' ho' => ?_, fun o ho => ?_⟩
  · obtain ⟨o, ho⟩ := (h n hn').2 _ ho'
    obtain ⟨o1, h1, h2⟩ := (h n hn').1 _ ho
    have := h1.unique ho'
    subst this
    exact ⟨o, ho, h2.symm⟩
  · obtain ⟨o1, h1, _⟩ := (h n hn').1 _ ho
    exact ⟨o1, h1⟩

theorem SamePart.moved {root : String} (h : SamePart canon P P' root) : Moved id canon canon P P' root := by
  intro n hn
  refine ⟨fun o ho => ?_, (h n hn).2⟩
  obtain ⟨o', h1, h2, h3, h4, h5, h6⟩ := (h n hn).1 o ho
  exact ⟨o', h1, by rw [Proj.path, Proj.path, h2]; rfl, by rw [h2, List.map_id], h3.symm, h4.symm, h5.symm, fun f => by rw [h6]; rfl⟩

/-- **C151**, what holds: the target `name` and all that it depends on is described in the same way in two projects, which may
differ in everything else, and the file systems agree at the paths of these targets.  If `name` is built successfully in both,
the same commands are run, as told by their targets, and the files that `name` depends on get the same contents.
Missing: another target may keep a build of `name` from beginning (`C151_violated`). -/
theorem C151_partial (hS : Sound P canon) (hS' : Sound P' canon) {name : String} (hsame : SamePart canon P P' name)
    {root root' : Nat} (hroot : Resolves canon P.reg name root) (hroot' : Resolves canon P'.reg name root')
    (hk : P.kind root ≠ .other) {fs fs' : FS α}
    (hfs : ∀ o, Closure canon P.reg root o → IsPath P o → fs (P.path o) = fs' (P.path o))
    {cache cache' : FileCache} (hacc : Accurate P fs cache) (hacc' : Accurate P' fs' cache')
    {B : Invocation P canon root fs cache} {B' : Invocation P' canon root' fs' cache'} {clock clock' : Nat}
    {tr tr' : List (Ev α)} {s s' : St α} (hx : B.Run clock tr s) (hx' : B'.Run clock' tr' s')
    (hs : s.Succeeded) (hs' : s'.Succeeded) :
    (∀ p, (∃ o ∈ B.commands tr, P.path o = p) ↔ (∃ o ∈ B'.commands tr', P'.path o = p)) ∧
    (Functional P canon → Functional P' canon → Faithful B clock tr → Faithful B' clock' tr' → Productive B tr → Productive B' tr' →
      ∀ o, Closure canon P.reg root o → P.kind o = .file ∨ P.kind o = .source →
        contents s.fs (P.path o) = contents s'.fs (P.path o)) := by
  obtain ⟨h1, h2⟩ := C152_partial hS hS' hsame.moved hroot hroot' hk (fun o ho hi => (hfs o ho hi).symm) hacc hacc' hx hx' hs hs'
  exact ⟨h1, fun hF hF' hfa hfa' hp hp' o ho hko => (h2 hF hF' hfa hfa' hp hp' o ho hko).symm⟩

/-- **C151**: a target that keeps all others from being built.  `x` is updatable, nothing that it depends on is out of date, and one
of these targets is not updatable.  Then no `makefile` begins to work, of whatever target. -/
theorem C151_blocked (hn : P.reg.targets.keys.Nodup) {x y : Nat} (hx : Registered P.reg x) (hu : (P.reg.obj x).upd = true)
    (hok : ∀ z, Closure canon P.reg x z → P.kind z = .other ∧ P.upd z = .ok false)
    (hy : Closure canon P.reg x y) (hyu : (P.reg.obj y).upd = false) (root : Nat) (fs : FS α) (cache : FileCache) :
    IsEmpty (Invocation P canon root fs cache) := by
  refine ⟨fun B => ?_⟩
  obtain ⟨lim, lim', m, m', hco, hev, _⟩ := B.evaluated
  obtain ⟨_, h2⟩ := updateNeeds_ok hn hco hev
  obtain ⟨b, _, ha, hg⟩ := h2 x hx hu
  cases b with
  | true =>
    obtain ⟨z, h3, h4⟩ := ha.1 rfl
    obtain ⟨h5, h6⟩ := hok z h3
    simp [updIf, internalUpdateIf, h5, h6, bind, Except.bind, Except.map] at h4
  | false =>
    have := (hg rfl).2 y hy
    rw [hyu] at this; cases this

/-! ### an example -/

/-- `demo` with two more targets: a plain target, and an updatable one that depends on it -/
def demoMore : Proj Nat where
  reg :=
    { targets := demo.reg.targets ++ [("check", 5), ("report", 6)]
      obj := fun
        | 5 => ⟨"check", [], false, [], "action"⟩
        | 6 => ⟨"report", ["check"], true, [], "update"⟩
        | o => demo.reg.obj o
      next := 7 }
  kind := demo.kind
  force := demo.force
  upd := demo.upd
  cmd := demo.cmd
  parents := demo.parents

/-- `demo` with an unrelated file -/
def demoOther : Proj Nat where
  reg :=
    { targets := ("x", 7) :: demo.reg.targets
      obj := fun
        | 7 => ⟨"x", [], true, [], "makefile"⟩
        | o => demo.reg.obj o
      next := 8 }
  kind := fun
    | 7 => .file
    | o => demo.kind o
  force := demo.force
  upd := demo.upd
  cmd := demo.cmd
  parents := demo.parents

theorem demo_names {n : String} (h : LeadsTo id demo.reg "all" n) : n ∈ ["a.c", "d", "d/a.o", "d/app", "all"] := by
  induction h with
  | root => decide
  | @dep n d o _ hr hd ih =>
    obtain ⟨h1, h2⟩ := demo_resolves hr
    have : o = 0 ∨ o = 1 ∨ o = 2 ∨ o = 3 ∨ o = 4 := by omega
    rcases this with rfl | rfl | rfl | rfl | rfl <;> revert d <;> decide

theorem demo_samePart {Q : Proj Nat} (hQ : ∀ n ∈ ["a.c", "d", "d/a.o", "d/app", "all"], Q.reg.targets.get n = demo.reg.targets.get n)
    (ha : ∀ o < 5, SameTarget demo Q o o) : SamePart id demo Q "all" := by
  intro n hn
  have hm := demo_names hn
  have hg := hQ n hm
  refine ⟨fun o ho => ⟨o, ?_, ha o (demo_resolves ho).2⟩, fun o ho => ⟨o, ?_⟩⟩
  · unfold Resolves at ho ⊢
    simp only [id] at ho ⊢
    rw [hg]; exact ho
  · unfold Resolves at ho ⊢
    simp only [id] at ho ⊢
    rw [← hg]; exact ho

theorem demo_lt {p : Nat → Prop} (h0 : p 0) (h1 : p 1) (h2 : p 2) (h3 : p 3) (h4 : p 4) : ∀ o < 5, p o := by
  intro o ho
  have : o = 0 ∨ o = 1 ∨ o = 2 ∨ o = 3 ∨ o = 4 := by omega
  rcases this with rfl | rfl | rfl | rfl | rfl <;> assumption

theorem demoMore_same : SamePart id demo demoMore "all" :=
  demo_samePart (by decide) (demo_lt ⟨rfl, rfl, rfl, rfl, rfl⟩ ⟨rfl, rfl, rfl, rfl, rfl⟩ ⟨rfl, rfl, rfl, rfl, rfl⟩
    ⟨rfl, rfl, rfl, rfl, rfl⟩ ⟨rfl, rfl, rfl, rfl, rfl⟩)

theorem demoOther_same : SamePart id demo demoOther "all" :=
  demo_samePart (by decide) (demo_lt ⟨rfl, rfl, rfl, rfl, rfl⟩ ⟨rfl, rfl, rfl, rfl, rfl⟩ ⟨rfl, rfl, rfl, rfl, rfl⟩
    ⟨rfl, rfl, rfl, rfl, rfl⟩ ⟨rfl, rfl, rfl, rfl, rfl⟩)

/-- **C151 violated**: `all` is described in the same way in both projects and can be built in the first one; in the second one there
is also an updatable target that depends on a plain one, and no build of `all` begins, whatever the files are. -/
theorem C151_violated : SamePart id demo demoMore "all" ∧ (∃ s, demoB.Run 7 demoTr s ∧ s.Succeeded) ∧
    demoMore.reg.targets.get "all" = some 4 ∧ ¬ Closure id demoMore.reg 4 5 ∧ ¬ Closure id demoMore.reg 4 6 ∧
    ∀ fs cache, IsEmpty (Invocation demoMore id 4 fs cache) := by
  obtain ⟨s, h1, h2, _⟩ := demo_build
  have hr : ∀ d o, Resolves id demoMore.reg d o → (d, o) ∈ demoMore.reg.targets := by
    rintro d o (h | ⟨_, h⟩)
    · exact Dict.mem_of_get h
    · exact Dict.mem_of_get (h : demoMore.reg.targets.get d = some o)
  have hcl : ∀ z, Closure id demoMore.reg 4 z → z < 5 := by
    intro z hz
    obtain ⟨z', h3, h4⟩ := Twins.closure (P := demoMore) (P' := demo) (σ := id) demoMore_same.symm.moved
      ⟨"all", .root, Or.inl rfl, Or.inl rfl⟩ hz
    obtain ⟨n, h5, h6, h7⟩ := h4
    obtain ⟨o', h8, h9⟩ := (demoMore_same n (demoMore_same.names h5)).1 _ h7
    have hlt := (demo_resolves h7).2
    have hm := hr _ _ h6
    have hm' := demo_names (demoMore_same.names h5)
    by_contra hge
    simp only [demoMore, demo, List.cons_append, List.nil_append, List.mem_cons, Prod.mk.injEq, List.not_mem_nil, or_false] at hm
    rcases hm with ⟨_, rfl⟩ | ⟨_, rfl⟩ | ⟨_, rfl⟩ | ⟨_, rfl⟩ | ⟨_, rfl⟩ | ⟨rfl, rfl⟩ | ⟨rfl, rfl⟩
    all_goals first | exact absurd hge (by decide) | exact absurd hm' (by decide)
  refine ⟨demoMore_same, ⟨s, h1, h2⟩, rfl, fun h => by have := hcl _ h; omega, fun h => by have := hcl _ h; omega, ?_⟩
  intro fs cache
  have hdep : ∀ z, ObjDep id demoMore.reg 6 z → z = 5 := by
    rintro z ⟨d, hd, hz⟩
    have hd : d ∈ ["check"] := hd
    simp only [List.mem_cons, List.not_mem_nil, or_false] at hd
    subst hd
    exact hz.unique (Or.inl rfl)
  have hdep5 : ∀ z, ¬ ObjDep id demoMore.reg 5 z := by
    rintro z ⟨d, hd, _⟩
    cases hd
  have hcl6 : ∀ z, Closure id demoMore.reg 6 z → z = 6 ∨ z = 5 := by
    intro z hz
    induction hz with
    | refl => exact Or.inl rfl
    | tail _ h ih =>
      rcases ih with rfl | rfl
      · exact Or.inr (hdep _ h)
      · exact absurd h (hdep5 _)
  refine C151_blocked (x := 6) (y := 5) (by decide) ⟨"report", rfl⟩ rfl ?_ (.single ⟨"check", by decide, Or.inl rfl⟩) rfl 4 fs cache
  intro z hz
  rcases hcl6 z hz with rfl | rfl <;> exact ⟨rfl, rfl⟩

theorem demoOther_resolves {d : String} {o : Nat} (h : Resolves id demoOther.reg d o) :
    (d = "x" ∧ o = 7) ∨ (d ≠ "x" ∧ Resolves id demo.reg d o) := by
  have h : demoOther.reg.targets.get d = some o := by rcases h with h | ⟨_, h⟩ <;> exact h
  have hm := Dict.mem_of_get h
  simp only [demoOther, List.mem_cons, Prod.mk.injEq] at hm
  rcases hm with ⟨rfl, rfl⟩ | hm
  · exact Or.inl ⟨rfl, rfl⟩
  · right
    have hg := Dict.get_of_mem (d := demo.reg.targets) (by decide) hm
    refine ⟨?_, Or.inl hg⟩
    rintro rfl
    cases hg

theorem demoOther_dep {o o' : Nat} (h : ObjDep id demoOther.reg o o') : ObjDep id demo.reg o o' := by
  obtain ⟨d, hd, hr⟩ := h
  by_cases ho : o = 7
  · subst ho; cases hd
  · have hobj : demoOther.reg.obj o = demo.reg.obj o := by
      show (match o with | 7 => _ | o => demo.reg.obj o) = _
      split
      · exact absurd rfl ho
      · rfl
    rw [hobj] at hd
    rcases demoOther_resolves hr with ⟨rfl, rfl⟩ | ⟨_, hr⟩
    · exfalso
      have : o = 0 ∨ o = 1 ∨ o = 2 ∨ o = 3 ∨ o = 4 ∨ 4 < o := by omega
      rcases this with rfl | rfl | rfl | rfl | rfl | h4
      · revert hd; decide
      · revert hd; decide
      · revert hd; decide
      · revert hd; decide
      · revert hd; decide
      · obtain ⟨k, rfl⟩ : ∃ k, o = k + 5 := ⟨o - 5, by omega⟩
        simp [demo] at hd
    · exact ⟨d, hd, hr⟩

theorem demoOther_trans {o o' : Nat} (h : TransGen (ObjDep id demoOther.reg) o o') : TransGen (ObjDep id demo.reg) o o' := by
  induction h with
  | single h => exact .single (demoOther_dep h)
  | tail _ h ih => exact ih.tail (demoOther_dep h)

theorem demoOther_reg {o : Nat} (h : Registered demoOther.reg o) : o < 5 ∨ o = 7 := by
  obtain ⟨n, hn⟩ := h
  rcases demoOther_resolves (Or.inl hn) with ⟨_, h⟩ | ⟨_, h⟩
  · exact Or.inr h
  · exact Or.inl (demo_resolves h).2

theorem demoOther_sound : Sound demoOther id where
  nodup := by decide
  consistent := by
    intro n o h
    rcases demoOther_resolves (Or.inl h) with ⟨rfl, rfl⟩ | ⟨_, h⟩
    · rfl
    · have hlt := (demo_resolves h).2
      exact demo_lt (p := fun o => demoOther.reg.targets.get (demoOther.reg.obj o).tgt = some o) rfl rfl rfl rfl rfl o hlt
  acyclic := fun o h => demo_sound.acyclic o (demoOther_trans h)
  upd := by
    intro o ho _
    rcases demoOther_reg ho with h | rfl
    · exact demo_lt (p := fun o => (demoOther.reg.obj o).upd = true) rfl rfl rfl rfl rfl o h
    · rfl
  srcDeps := by
    intro o o' hk h
    have hd := demo_dep.1 (demoOther_dep h)
    simp only [List.mem_cons, Prod.mk.injEq, List.not_mem_nil, or_false] at hd
    rcases hd with ⟨rfl, rfl⟩ | ⟨rfl, rfl⟩ | ⟨rfl, rfl⟩ | ⟨rfl, rfl⟩ | ⟨rfl, rfl⟩ <;>
      rcases hk with hk | hk <;> cases hk
  fileDeps := by
    intro o o' _ h
    have hd := demo_dep.1 (demoOther_dep h)
    simp only [List.mem_cons, Prod.mk.injEq, List.not_mem_nil, or_false] at hd
    rcases hd with ⟨rfl, rfl⟩ | ⟨rfl, rfl⟩ | ⟨rfl, rfl⟩ | ⟨rfl, rfl⟩ | ⟨rfl, rfl⟩ <;> decide
  ancestors := by intro b a _ _ _ h; cases h

theorem demoOther_all : ∀ o, o ∈ [7, 0, 1, 2, 3, 4] ↔ Registered demoOther.reg o ∧ (demoOther.reg.obj o).upd = true := by
  intro o
  constructor
  · intro h
    have h5 : o < 5 ∨ o = 7 := by simp only [List.mem_cons, List.not_mem_nil, or_false] at h; omega
    rcases h5 with h5 | rfl
    · exact demo_lt (p := fun o => Registered demoOther.reg o ∧ (demoOther.reg.obj o).upd = true) ⟨⟨"a.c", rfl⟩, rfl⟩ ⟨⟨"d", rfl⟩, rfl⟩
        ⟨⟨"d/a.o", rfl⟩, rfl⟩ ⟨⟨"d/app", rfl⟩, rfl⟩ ⟨⟨"all", rfl⟩, rfl⟩ o h5
    · exact ⟨⟨"x", rfl⟩, rfl⟩
  · rintro ⟨h, _⟩
    have := demoOther_reg h
    simp only [List.mem_cons, List.not_mem_nil, or_false]
    omega

def demoOtherB : Invocation demoOther id 4 demoFs [] := .of (lim := 10) (lim' := 10) (n := 1) _ demoOther_all rfl rfl rfl

/-- Non-vacuity of C151_partial: `all` is built in the project with the additional file `x`. -/
example : ∃ s s', demoB.Run 7 demoTr s ∧ demoOtherB.Run 7 demoTr s' ∧
    (∀ p, (∃ o ∈ demoB.commands demoTr, demo.path o = p) ↔ (∃ o ∈ demoOtherB.commands demoTr, demoOther.path o = p)) ∧
    2 ∈ demoB.commands demoTr := by
  obtain ⟨s, h1, h2, _, _, _, h3⟩ := demo_build
  have hx : demoOtherB.Run 7 demoTr _ := run_iff.2 rfl
  exact ⟨s, _, h1, hx, (C151_partial demo_sound demoOther_sound demoOther_same (Or.inl rfl) (Or.inl rfl) (by decide) (fun _ _ _ => rfl)
    (accurate_nil _ _) (accurate_nil _ _) h1 hx h2 ⟨rfl, rfl⟩).1, by rw [h3]; decide⟩

end Licant.Make
