/-
Sources that are deleted.  C153.
-/
import Verif.Make.Session

set_option autoImplicit false

namespace Licant.Make
open Licant.Py Licant.Core Relation

variable {α : Type} {P : Proj α} {canon : String → String} {root : Nat}

/-- the files without `p` -/
def deleted (fs : FS α) (p : String) : FS α := fun q => if q = p then none else fs q

/-- **C153**, for all projects: a project is up to date, then the source `x` is deleted.  A successful build runs the commands of exactly
those file targets that depend on `x`, no execution runs any other, and the build does not fail because of `x` itself, and does not make it. -/
theorem C153_dependents (hS : Sound P canon) (hroot : Registered P.reg root) (hk : P.kind root ≠ .other) {fs1 : FS α}
    (hup : ¬ NeedsWork P canon (fileinfo fs1) root) {x : Nat} (hxc : Closure canon P.reg root x) (hxk : P.kind x = .source)
    {cache : FileCache} (hacc : Accurate P (deleted fs1 (P.path x)) cache) {B : Invocation P canon root (deleted fs1 (P.path x)) cache}
    {clock : Nat} {tr : List (Ev α)} {s : St α} (hx : B.Run clock tr s) :
    (∀ o ∈ B.commands tr, Closure canon P.reg root o ∧ P.kind o = .file ∧ TransGen (ObjDep canon P.reg) o x) ∧
    (s.Succeeded → ∀ o, o ∈ B.commands tr ↔
      Closure canon P.reg root o ∧ P.kind o = .file ∧ TransGen (ObjDep canon P.reg) o x) ∧
    (∀ w i r, Solver.Ev.finish w i r ∈ sched tr → B.objs[i]? = some x → r = .ok) ∧
    s.fs (P.path x) = none := by
  have hxr := closure_registered hroot hxc
  have hmiss : deleted fs1 (P.path x) (P.path x) = none := if_pos rfl
  have hother : ∀ o, Registered P.reg o → o ≠ x → deleted fs1 (P.path x) (P.path o) = fs1 (P.path o) := by
    intro o ho hne
    exact if_neg fun h => hne (path_inj hS ho hxr h)
  obtain ⟨c1, c2⟩ := commands_iff hS hroot hk hacc hx
  obtain ⟨m1, _, m3⟩ := C44_missing_source hS hroot hk hacc hxk hxc hmiss hx
  have need : ∀ o, Closure canon P.reg root o → P.kind o = .file →
      (NeedsWork P canon (fileinfo (deleted fs1 (P.path x))) o ↔ TransGen (ObjDep canon P.reg) o x) := by
    intro o ho hko
    constructor
    · rintro ⟨a, hoa, hood⟩
      have hca := ReflTransGen.trans ho hoa
      have hra := closure_registered hroot hca
      have hold : ¬ OutOfDate P canon (fileinfo fs1) a := fun h => hup ⟨a, hca, h⟩
      by_cases hax : a = x
      · subst hax
        rcases reflTransGen_iff_eq_or_transGen.1 hoa with h | h
        · subst h; rw [hxk] at hko; cases hko
        · exact h
      · exfalso
        refine hold ?_
        unfold OutOfDate at hood ⊢
        rw [fileinfo_congr (hother a hra hax)] at hood
        have key : (P.force a = true ∨ (fileinfo fs1 (P.path a)).exist = false ∨
            ∃ b, InputOf P canon a b ∧ (fileinfo (deleted fs1 (P.path x)) (P.path b)).mtime > (fileinfo fs1 (P.path a)).mtime) →
            (P.force a = true ∨ (fileinfo fs1 (P.path a)).exist = false ∨
            ∃ b, InputOf P canon a b ∧ (fileinfo fs1 (P.path b)).mtime > (fileinfo fs1 (P.path a)).mtime) := by
          rintro (h | h | ⟨b, h1, h2⟩)
          · exact Or.inl h
          · exact Or.inr (Or.inl h)
          · refine Or.inr (Or.inr ⟨b, h1, ?_⟩)
            by_cases hbx : b = x
            · subst hbx
              simp [fileinfo, hmiss] at h2
            · rw [fileinfo_congr (hother b h1.registered hbx)] at h2
              exact h2
        cases hka : P.kind a with
        | file => rw [hka] at hood; exact key hood
        | source => rw [hka] at hood; exact key hood
        | dir => rw [hka] at hood; exact hood
        | fileset => rw [hka] at hood; exact hood
        | other => rw [hka] at hood; exact hood
    · intro h
      refine ⟨x, h.to_reflTransGen, ?_⟩
      unfold OutOfDate
      rw [hxk]
      exact Or.inr (Or.inl (by rw [fileinfo_exist, hmiss]; rfl))
  refine ⟨?_, ?_, m1, m3⟩
  · intro o ho
    obtain ⟨h1, h2, h3⟩ := c1 o ho
    exact ⟨h1, h2, (need o h1 h2).1 h3⟩
  · intro hs o
    rw [c2 hs o]
    exact ⟨fun ⟨h1, h2, h3⟩ => ⟨h1, h2, (need o h1 h2).1 h3⟩, fun ⟨h1, h2, h3⟩ => ⟨h1, h2, (need o h1 h2).2 h3⟩⟩

end Licant.Make
