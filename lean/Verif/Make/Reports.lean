/-
What a failed build of files says.  C150.
-/
import Verif.Make.Props
import Verif.Solver.Reports

set_option autoImplicit false

namespace Licant.Make
open Licant.Py Licant.Core Relation

variable {α : Type} {P : Proj α} {canon : String → String} {root : Nat} {fs0 : FS α}
  {cache0 : FileCache} {B : Invocation P canon root fs0 cache0} {clock0 : Nat} {s : St α}
  {tr : List (Ev α)}

/-- C150 for a build: the name on the screen is that of a target `root` depends on, namely of the one whose
update was the first to fail; there is none if none has failed. -/
theorem C150_build (hS : Sound P canon) (hroot : Registered P.reg root) (hx : B.Run clock0 tr s) :
    (∃ out, Solver.ExecSaid B.ds B.g B.n (sched tr) s.sol out) ∧
    ∀ out, Solver.ExecSaid B.ds B.g B.n (sched tr) s.sol out →
    ((∀ w i, Ev.sched (.finish w i .fail) ∉ tr) ∧ out = []) ∨
    ∃ pre post w i o, sched tr = pre ++ .finish w i .fail :: post ∧
      (∀ w' i', Solver.Ev.finish w' i' .fail ∉ pre) ∧ B.objs[i]? = some o ∧ Closure canon P.reg root o ∧
      out = [P.path o] ∧ ¬ s.Succeeded := by
  obtain ⟨hp, order, lim, ho, hg⟩ := B.prep hS hroot
  refine ⟨hx.exec.said, fun out hout => ?_⟩
  rcases Solver.C150_named ho hg hout with ⟨h1, h2, _⟩ | ⟨pre, post, w, i, T, h1, h2, h3, h4, h5⟩
  · exact Or.inl ⟨fun w i hm => h1 w i (mem_sched.2 hm), h2⟩
  · right
    have hi : i < B.objs.length := by
      rw [← hp.len]
      exact (List.getElem?_eq_some_iff.1 h3).1
    have ho' := List.getElem?_eq_getElem hi
    obtain ⟨T', e1, e2, _⟩ := hp.at_ i _ ho'
    rw [h3] at e1; cases e1
    refine ⟨pre, post, w, i, _, h1, h2, ho', (hp.mem _).1 (List.getElem_mem hi), by rw [h4, e2], ?_⟩
    intro hs
    have := hs.2
    simp_all

/-- Non-vacuity of C150_build: the command of `d/a.o` fails. -/
example : demoB.Run 7 demoTrGarbage demoSG ∧
    Solver.ExecSaid demoB.ds demoB.g demoB.n (sched demoTrGarbage) demoSG.sol ["d/a.o"] := by
  have hx : demoB.Run 7 demoTrGarbage demoSG := run_iff.2 rfl
  obtain ⟨⟨out, hout⟩, h⟩ := C150_build demo_sound demo_root hx
  refine ⟨hx, ?_⟩
  rcases h out hout with ⟨h1, _⟩ | ⟨pre, post, w, i, o, h1, _, h3, _, rfl, _⟩
  · exact absurd (by simp [demoTrGarbage]) (h1 0 3)
  · have : Solver.Ev.finish w i .fail ∈ sched demoTrGarbage := by rw [h1]; simp
    have hi : i = 3 := by
      simp [sched, demoTrGarbage] at this
      exact this.2
    subst hi
    have h3' : demoB.objs[3]? = some 2 := rfl
    rw [h3'] at h3; cases h3
    exact hout

end Licant.Make
