/-
C100 and C101: patterns in lists of dependencies.
-/
import Verif.Make.Default

set_option autoImplicit false

namespace Licant.Make
open Licant.Py Licant.Core Relation

variable {E : Env} {lim : Nat}

/-! ### specification -/

/-- The text `d` in a list of dependencies stands for the file `f`: for each file found if `d` is a pattern, for itself
otherwise. -/
def StandsFor (E : Env) (d f : String) : Prop := if '*' ∈ d.toList then f ∈ E.glob d else f = d

/-- the name of the target that a call makes, and its dependencies as the caller writes them -/
def CallD.declares (E : Env) : CallD → Option (String × List String)
  | .source _ => none
  | .makefile tgt deps => some (E.canon tgt, deps)
  | .copy tgt src adddeps => some (E.canon (E.home tgt), E.home src :: adddeps)
  | .fileset tgt targets deps => some (tgt, deps ++ targets)
  | .target tgt deps _ _ => some (tgt, deps)
  | .makedir dir => some (E.canon dir, [])

/-! ### proofs -/

theorem mem_globs {deps : List String} {f : String} : f ∈ globs E deps ↔ ∃ d ∈ deps, StandsFor E d f := by
  unfold globs StandsFor
  rw [List.mem_flatMap]
  constructor
  · rintro ⟨d, hd, h⟩
    refine ⟨d, hd, ?_⟩
    split
    · rename_i hs; rwa [if_pos hs] at h
    · rename_i hs; rw [if_neg hs] at h; simpa using h
  · rintro ⟨d, hd, h⟩
    refine ⟨d, hd, ?_⟩
    split
    · rename_i hs; rwa [if_pos hs] at h
    · rename_i hs; rw [if_neg hs] at h; simpa using h

theorem addSources_grow {fuel : Nat} : ∀ (l : List String) (d d' : MReg), addSources E fuel d l = .ok d' → Grow d d' := by
  intro l
  unfold addSources
  induction l with
  | nil => intro d d' h; cases h; exact fun _ h => h
  | cons r l ihl =>
    intro d d' h
    simp only [List.foldlM_cons, bind, Except.bind] at h
    split at h
    · cases h
    · rename_i d1 h1
      refine Grow.trans ?_ (ihl d1 d' h)
      split at h1
      · split at h1
        · cases h1; exact grow_has _ _
        · split at h1
          · cases h1
          · rename_i x d2 t2 ds2 h2
            cases h1
            exact ((grow_has _ _).trans (fileInit_grow _ _ _ _ _ _ _ _ h2).1).trans (grow_add _ _ _)
      · cases h1; exact fun _ h => h

theorem addSources_resolves (hi : Idempotent E.canon) {fuel : Nat} : ∀ (l : List String) (d d' : MReg),
    addSources E fuel d l = .ok d' → ∀ r ∈ l, E.ex r = true → ∃ o, Resolves E.canon d'.reg r o := by
  intro l
  induction l with
  | nil => intro d d' _ r hr; cases hr
  | cons r l ih =>
    intro d d' h
    have h' := h
    unfold addSources at h
    simp only [List.foldlM_cons, bind, Except.bind] at h
    split at h
    · cases h
    · rename_i d1 h1
      intro x hx hxe
      rcases List.mem_cons.1 hx with rfl | hx
      · rw [if_pos hxe] at h1
        have : sourceG E fuel d x [] = .ok d1 := h1
        obtain ⟨o, ho⟩ := sourceG_resolves hi this
        exact (addSources_grow l d1 d' h).resolves ho
      · exact ih d1 d' h x hx hxe

/-- the existing dependencies of a new file target are registered -/
theorem fileInit_resolves (hi : Idempotent E.canon) {fuel : Nat} {d d' : MReg} {tgt t : String} {deps ds : List String}
    {u : Bool} (h : fileInit E fuel d tgt deps u = .ok (d', t, ds)) :
    ∀ r ∈ ds, E.ex r = true → ∃ o, Resolves E.canon d'.reg r o := by
  cases fuel with
  | zero => cases h
  | succ fuel =>
    rw [fileInit] at h
    simp only at h
    split at h
    · cases h
    · rename_i d1 deps1 hdir
      split at h
      · cases h
      · rename_i d2 hsrc
        cases h
        exact addSources_resolves hi _ _ _ hsrc

theorem makefileG_dflt (hi : Idempotent E.canon) {w w' : World} {tgt : String} {deps : List String}
    (hs : '*' ∉ (E.canon tgt).toList) (h : makefileG E lim w tgt deps false = .ok w') :
    ∃ o, Resolves E.canon w'.dflt.reg (E.canon tgt) o ∧ w'.dflt.kind o = .file ∧
      (∀ f, f ∈ (w'.dflt.reg.obj o).deps ↔
        f ∈ globs E deps ∨ (E.ex (parent (E.canon tgt)) = false ∧ f = parent (E.canon tgt))) ∧
      ∀ f ∈ (w'.dflt.reg.obj o).deps, E.ex f = true → ∃ s, Resolves E.canon w'.dflt.reg f s := by
  unfold makefileG at h
  split at h
  · cases h
  · rename_i d t ds h1
    cases h
    obtain ⟨_, rfl, hds, _⟩ := fileInit_grow _ _ _ _ _ _ _ _ h1
    simp only [World.addTo, Bool.false_eq_true, if_false]
    have hobj : ((d.add (makeObj (E.canon tgt) ds) .file).reg.obj d.reg.next).deps = ds := by
      simp [MReg.add, Core.add, makeObj]
    refine ⟨d.reg.next, add_self (ob := makeObj (E.canon tgt) ds), by simp [MReg.add], ?_, ?_⟩
    · intro f
      rw [hobj, hds, globs_append, List.mem_append]
      have hg : globs E [parent (E.canon tgt)] = [parent (E.canon tgt)] :=
        globs_id (by
          intro x hx
          rw [List.mem_singleton] at hx
          rw [hx]
          exact nostar_anc hs 0)
      cases hx : E.ex (parent (E.canon tgt)) with
      | true => simp [globs]
      | false => simp [hg]
    · intro f hf hx
      rw [hobj] at hf
      obtain ⟨s, hs⟩ := fileInit_resolves hi h1 f hf hx
      exact (grow_add _ _ _).resolves hs

/-- **C100**: in the default core, the target made by `makefile`, `copy`, `fileset`, `makedir`, `target`, `updtarget` or
`routine` depends exactly on the files that its
dependencies stand for, patterns being replaced by the files found, and on its directory if that is missing; and every
existing one of them is a target. -/
theorem C100_patterns (hi : Idempotent E.canon) {w w' : World} {cl : CallD} {tgt : String} {deps : List String}
    (hd : cl.declares E = some (tgt, deps)) (hs : '*' ∉ tgt.toList) (h : callD E lim w cl = .ok w') :
    ∃ o, Resolves E.canon w'.dflt.reg tgt o ∧
      (∀ d ∈ deps, ∀ f, StandsFor E d f → f ∈ (w'.dflt.reg.obj o).deps) ∧
      (∀ f ∈ (w'.dflt.reg.obj o).deps, (∃ d ∈ deps, StandsFor E d f) ∨ E.ex (parent tgt) = false ∧ f = parent tgt) ∧
      ∀ d ∈ deps, ∀ f, StandsFor E d f → E.ex f = true →
        ∃ s, Resolves E.canon w'.dflt.reg f s ∧ ObjDep E.canon w'.dflt.reg o s := by
  have key : ∃ o, Resolves E.canon w'.dflt.reg tgt o ∧
      (∀ f, f ∈ globs E deps → f ∈ (w'.dflt.reg.obj o).deps) ∧
      (∀ f ∈ (w'.dflt.reg.obj o).deps, f ∈ globs E deps ∨ E.ex (parent tgt) = false ∧ f = parent tgt) ∧
      ∀ f ∈ (w'.dflt.reg.obj o).deps, E.ex f = true → ∃ s, Resolves E.canon w'.dflt.reg f s := by
    cases cl with
    | source src => cases hd
    | makefile t ds =>
      simp only [CallD.declares, Option.some.injEq, Prod.mk.injEq] at hd
      obtain ⟨rfl, rfl⟩ := hd
      obtain ⟨o, h1, _, h3, h4⟩ := makefileG_dflt hi hs h
      exact ⟨o, h1, fun f hf => (h3 f).2 (Or.inl hf), fun f hf => (h3 f).1 hf, h4⟩
    | copy t src adddeps =>
      simp only [CallD.declares, Option.some.injEq, Prod.mk.injEq] at hd
      obtain ⟨rfl, rfl⟩ := hd
      simp only [callD, copyG] at h
      split at h
      · cases h
      · obtain ⟨o, h1, _, h3, h4⟩ := makefileG_dflt hi hs h
        exact ⟨o, h1, fun f hf => (h3 f).2 (Or.inl hf), fun f hf => (h3 f).1 hf, h4⟩
    | fileset t targets ds =>
      simp only [CallD.declares, Option.some.injEq, Prod.mk.injEq] at hd
      obtain ⟨rfl, rfl⟩ := hd
      simp only [callD, filesetG] at h
      split at h
      · cases h
      · rename_i d h1
        cases h
        simp only [World.addTo, Bool.false_eq_true, if_false]
        have hobj : ((d.add (makeObj t (globs E (ds ++ targets))) .fileset).reg.obj d.reg.next).deps =
            globs E (ds ++ targets) := by
          simp [MReg.add, Core.add, makeObj]
        refine ⟨d.reg.next, add_self (ob := makeObj t _), ?_⟩
        rw [hobj]
        refine ⟨fun f hf => hf, fun f hf => Or.inl hf, fun f hf hx => ?_⟩
        obtain ⟨s, hs⟩ := addSources_resolves hi _ _ _ h1 f hf hx
        exact (grow_add _ _ _).resolves hs
    | target t ds upd act =>
      simp only [CallD.declares, Option.some.injEq, Prod.mk.injEq] at hd
      obtain ⟨rfl, rfl⟩ := hd
      simp only [callD, targetG] at h
      split at h
      · cases h
      · rename_i d h1
        cases h
        have hobj : ((d.add ⟨t, globs E ds, upd, [], act⟩ .other).reg.obj d.reg.next).deps = globs E ds := by
          simp [MReg.add, Core.add]
        refine ⟨d.reg.next, add_self (ob := ⟨t, globs E ds, upd, [], act⟩), ?_⟩
        rw [hobj]
        refine ⟨fun f hf => hf, fun f hf => Or.inl hf, fun f hf hx => ?_⟩
        obtain ⟨s, hs⟩ := addSources_resolves hi _ _ _ h1 f hf hx
        exact (grow_add _ _ _).resolves hs
    | makedir dir =>
      simp only [CallD.declares, Option.some.injEq, Prod.mk.injEq] at hd
      obtain ⟨rfl, rfl⟩ := hd
      simp only [callD, dirkeepG] at h
      split at h
      · cases h
      · rename_i d t ds h1
        cases h
        obtain ⟨_, rfl, hds, _⟩ := fileInit_grow _ _ _ _ _ _ _ _ h1
        have hobj : ((d.add (makeObj (E.canon dir) ds) .dir).reg.obj d.reg.next).deps = ds := by
          simp [MReg.add, Core.add, makeObj]
        refine ⟨d.reg.next, add_self (ob := makeObj (E.canon dir) ds), ?_⟩
        rw [hobj]
        refine ⟨fun f hf => (by cases hf), fun f hf => Or.inr ?_, fun f hf hx => ?_⟩
        · rw [hds] at hf
          split at hf
          · rename_i hc
            simp only [Bool.and_eq_true, Bool.not_eq_true'] at hc
            rw [List.nil_append, globs_id (by
              intro x hx
              rw [List.mem_singleton] at hx
              rw [hx]
              exact nostar_anc hs 0), List.mem_singleton] at hf
            exact ⟨hc.2, hf⟩
          · cases hf
        · obtain ⟨s, hs⟩ := fileInit_resolves hi h1 f hf hx
          exact (grow_add _ _ _).resolves hs
  obtain ⟨o, h1, h2, h3, h4⟩ := key
  refine ⟨o, h1, fun d hd f hf => h2 f (mem_globs.2 ⟨d, hd, hf⟩), fun f hf => (h3 f hf).imp_left mem_globs.1,
    fun d hd f hf hx => ?_⟩
  have hm := h2 f (mem_globs.2 ⟨d, hd, hf⟩)
  obtain ⟨s, hs⟩ := h4 f hm hx
  exact ⟨s, hs, f, hm, hs⟩

/-- a file system with `/s/a`, `/s/b` and the pattern `/s/*` -/
def starEnv : Env where
  canon p := p
  ex p := decide (p ∈ [".", "/", "//", "/s", "/s/a", "/s/b"])
  home p := p
  glob p := if p = "/s/*" then ["/s/a", "/s/b"] else []

/-- `makefile("/s/out/x", ["/s/*", "y"])`: the directory `/s/out` is missing, `y` does not exist -/
example : ∃ w', callD starEnv 50 ⟨licantReg, noReg⟩ (.makefile "/s/out/x" ["/s/*", "y"]) = .ok w' ∧
    (CallD.makefile "/s/out/x" ["/s/*", "y"]).declares starEnv = some ("/s/out/x", ["/s/*", "y"]) ∧
    '*' ∉ "/s/out/x".toList ∧ StandsFor starEnv "/s/*" "/s/b" ∧
    (w'.dflt.reg.obj 7).deps = ["/s/a", "/s/b", "y", "/s/out"] := by
  refine ⟨_, rfl, rfl, by decide, ?_, by decide +kernel⟩
  unfold StandsFor
  rw [if_pos (by decide)]
  decide

/-! ### C101: other cores -/

/-- **C101** is false of the code, for every core other than the default one: after `core.ftarget(tgt, deps)` or
`core.touch(tgt, deps)` with a pattern among the dependencies that matches a file which was not declared in this core, the
closure of the target cannot be formed, because the file was registered in the default core. -/
theorem C101_violated (hE : E.Sane) {w w' : World} {tgt d f : String} {deps : List String} {o : Nat}
    (hwf : Wf E.canon w.own) (hd : d ∈ deps) (hstar : '*' ∈ d.toList) (hf : f ∈ E.glob d) (hx : E.ex f = true)
    (hno : ∀ o, ¬ Resolves E.canon w.own.reg f o) (hne : E.canon f ≠ E.canon (E.home tgt))
    (hs : '*' ∉ (E.home tgt).toList)
    (h : ftargetC E lim w tgt deps = .ok (w', o)) (lim' : Nat) (hl : (allDeps w'.own.reg).length + 1 < lim')
    (incroot : Bool) : dependsAsSet E.canon w'.own.reg lim' [] (E.canon (E.home tgt)) incroot = .error .exit := by
  unfold ftargetC at h
  split at h
  · cases h
  · rename_i w1 dirdeps h1
    obtain ⟨hdeps, hext, hanc, hnew, hres⟩ := dirkeepC_ok hE.idem lim w w1 _ dirdeps (nostar_anc hs)
      (fun i j h1 h2 e => missing_dist hE h1 h2 e) hwf h1
    obtain ⟨hown, rfl⟩ := addFileC_ok h
    refine ((C17_closure E.canon w'.own.reg lim' _ incroot).2 hl).2 ?_
    intro hall
    have hroot : Resolves E.canon w'.own.reg (E.canon (E.home tgt)) w1.own.reg.next := by
      rw [hown]
      exact add_self (ob := makeObj (E.canon (E.home tgt)) _)
    obtain ⟨o, ho⟩ := hall f (.single ⟨_, hroot, by
      rw [hown]
      simp only [MReg.add, Core.add, makeObj, if_true]
      refine mem_globs.2 ⟨d, by simp [hd], ?_⟩
      unfold StandsFor
      rw [if_pos hstar]
      exact hf⟩)
    rw [hown] at ho
    have ho1 : Resolves E.canon w1.own.reg f o := (add_resolves (by exact hE.idem _) hne).1 ho
    rcases hres _ _ ho1 with h2 | h2
    · exact hno o h2
    · obtain ⟨h3, h4, h5⟩ := h2
      obtain ⟨i, hm, h6, _⟩ := hnew o h3 h4
      have hm' := hm i (le_refl _)
      rw [← hE.exCanonAnc, ← h6, ← h5, hE.exCanon _ hx] at hm'
      cases hm'

theorem starEnv_sane : starEnv.Sane where
  idem _ := rfl
  home _ := rfl
  roots p h := by
    rw [← String.ofList_toList (s := p)]
    rcases h with h | h | h <;> rw [h] <;> decide
  exCanon _ h := h
  exCanonAnc _ _ := rfl
  exParent p h := by
    simp only [starEnv, decide_eq_true_eq, List.mem_cons, List.not_mem_nil, or_false] at h
    rcases h with rfl | rfl | rfl | rfl | rfl | rfl <;> decide +kernel
  up p i h := by
    rw [← parent_anc]
    generalize anc p i = q at h
    simp only [starEnv, decide_eq_true_eq, List.mem_cons, List.not_mem_nil, or_false] at h
    rcases h with rfl | rfl | rfl | rfl | rfl | rfl <;> decide +kernel
  canonParent p i _ := parent_anc p i

/-- the world, if the call returned -/
def okW : Except Err (World × Nat) → World
  | .ok (w, _) => w
  | .error _ => ⟨noReg, noReg⟩

/-- C101 is false of the code: `MakeCore().ftarget("/s/x", deps=["/s/*"])` -/
theorem C101_violated_witness : ∃ w' o, ftargetC starEnv 50 ⟨noReg, noReg⟩ "/s/x" ["/s/*"] = .ok (w', o) ∧
    dependsAsSet starEnv.canon w'.own.reg 50 [] "/s/x" true = .error .exit := by
  obtain ⟨⟨w', o⟩, h⟩ : ∃ r, ftargetC starEnv 50 ⟨noReg, noReg⟩ "/s/x" ["/s/*"] = .ok r := ⟨_, rfl⟩
  refine ⟨w', o, h, C101_violated starEnv_sane (d := "/s/*") (f := "/s/a") (wf_noReg _) (by simp) (by decide) (by decide)
    (by decide) ?_ (by decide) (by decide) h 50 ?_ true⟩
  · rintro o (h | ⟨_, h⟩) <;> cases h
  · have : w' = (okW (ftargetC starEnv 50 ⟨noReg, noReg⟩ "/s/x" ["/s/*"])) := by rw [h]; rfl
    rw [this]
    decide +kernel

/-- C101, proved part: when the files found were declared in the core before, the new target of `core.ftarget` and
`core.touch` depends exactly on what its dependencies stand for, and on its missing directory, and those files resolve in
the core.  Missing: files that were not declared (`C101_violated`). -/
theorem C101_partial (hE : E.Sane) {w w' : World} {tgt : String} {deps : List String} {o : Nat}
    (hwf : Wf E.canon w.own) (hs : '*' ∉ (E.home tgt).toList)
    (hself : ∀ i, E.ex (anc (E.home tgt) i) = false → E.canon (anc (E.home tgt) i) ≠ E.canon (E.home tgt))
    (hdecl : ∀ d ∈ deps, ∀ f, StandsFor E d f → E.canon f ≠ E.canon (E.home tgt) ∧ ∃ s, Resolves E.canon w.own.reg f s)
    (h : ftargetC E lim w tgt deps = .ok (w', o)) :
    Resolves E.canon w'.own.reg (E.canon (E.home tgt)) o ∧
    (∀ f, f ∈ (w'.own.reg.obj o).deps ↔ (∃ d ∈ deps, StandsFor E d f) ∨
      E.ex (parent (E.home tgt)) = false ∧ f = parent (E.home tgt)) ∧
    ∀ f ∈ (w'.own.reg.obj o).deps, ∃ s, Resolves E.canon w'.own.reg f s ∧ ObjDep E.canon w'.own.reg o s := by
  have hA := C40_ftarget hE hwf hs hself h
  have hiff : ∀ f, f ∈ (w'.own.reg.obj o).deps ↔ (∃ d ∈ deps, StandsFor E d f) ∨
      E.ex (parent (E.home tgt)) = false ∧ f = parent (E.home tgt) := by
    intro f
    rw [hA.deps f, mem_globs]
  refine ⟨hA.target.2.2, hiff, fun f hf => ?_⟩
  have : ∃ s, Resolves E.canon w'.own.reg f s := by
    rcases (hiff f).1 hf with ⟨d, hd, hf'⟩ | ⟨h1, rfl⟩
    · obtain ⟨hne, s, hr⟩ := hdecl d hd f hf'
      exact ⟨s, hA.names f s hne hr⟩
    · obtain ⟨b, hb, _⟩ := hA.missing 0 h1
      exact ⟨b, hb⟩
  obtain ⟨s, hr⟩ := this
  exact ⟨s, hr, f, hf, hr⟩

/-- `/s/a` and `/s/b` are declared before -/
example : ∃ w1 w2 w' o1 o2 o, sourceC starEnv 50 ⟨noReg, noReg⟩ "/s/a" = .ok (w1, o1) ∧
    sourceC starEnv 50 w1 "/s/b" = .ok (w2, o2) ∧ Resolves starEnv.canon w2.own.reg "/s/a" o1 ∧
    Resolves starEnv.canon w2.own.reg "/s/b" o2 ∧ (∀ f, StandsFor starEnv "/s/*" f → f = "/s/a" ∨ f = "/s/b") ∧
    ftargetC starEnv 50 w2 "/s/x" ["/s/*"] = .ok (w', o) ∧ (w'.own.reg.obj o).deps = ["/s/a", "/s/b"] := by
  refine ⟨_, _, _, _, _, _, rfl, rfl, Or.inl (by decide +kernel), Or.inl (by decide +kernel), ?_, rfl, by decide +kernel⟩
  intro f hf
  unfold StandsFor at hf
  rw [if_pos (by decide)] at hf
  simpa [starEnv] using hf

end Licant.Make
