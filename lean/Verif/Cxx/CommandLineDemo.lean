/-
Example for C121: the command line `licant -j 3` in the project of `TwiceDemo`, in which only the sources exist.
-/
import Verif.Cxx.CommandLine
import Verif.Cxx.TwiceDemo

set_option autoImplicit false

namespace Licant.Cxx
open Licant.Py Licant.Core Licant.Make Relation
open Licant.Misc (Proc New procProg Wants)

/-- the process after the script was read -/
def newProc : Proc Nat where
  run := { core := newP.reg, cache := [], threads := none, args := fun _ => [], started := [] }
  marks := noMarks
  fs := newFs
  files := []

theorem newCmd_facts : (allDeps newP.reg).length + 1 < 50 ∧ newP.reg.targets.length < 50 ∧
    ∀ o ∈ List.range newP.reg.next, (newP.reg.obj o).upd = true → newP.kind o ≠ .other := by
  decide +kernel

theorem newCmd_other {o : Nat} (hr : Registered newP.reg o) (h : newP.kind o = .other) : (newP.reg.obj o).upd = false := by
  obtain ⟨n, hn⟩ := hr
  cases hu : (newP.reg.obj o).upd with
  | false => rfl
  | true => exact absurd h (newCmd_facts.2.2 o (List.mem_range.2 (new_program.good.lt n o hn)) hu)

/-- All hypotheses of `C121_program`; its conclusion: the first process starts the build with three workers. -/
example : ∃ s' c, ∃ B : Invocation (Misc.withReg newP c) newSite.env.canon 19 newFs [],
    (procProg newP newSite.env.canon id Solver.idOrder 50 (fun _ => false) (fun _ => []) (fun _ _ => true) fun _ s => .ok s).cliJobs
      Proc.setThreads (some 8) "3" (some "/b/app") [] newProc = .ok s' ∧
    s'.run.started = [(B.objs, B.ds, B.g, B.n)] ∧ B.n = 3 := by
  obtain ⟨s', c, B, h1, h2, _, _, _, h3, _⟩ := C121_program newSite_sane new_program (P := newP) ⟨rfl, rfl, rfl⟩
    (by intro p q h; cases h)
    (fun o o' hr h hu => by rw [newCmd_other hr h] at hu; cases hu) (fun o hr h hu => by rw [newCmd_other hr h] at hu; cases hu)
    (setOrder := id) (fun l => .refl l) Solver.idOrder_isOrder newCmd_facts.1 newCmd_facts.2.1
    (routine := fun _ => false) (actions := fun _ => []) (hasattr := fun _ _ => true) rfl (other := fun _ s => .ok s)
    (s := newProc) ⟨rfl, rfl, rfl, rfl⟩ (cpu := some 8) (opt := "3") (z := 3) (Or.inl (Misc.pyInt_iff.1 (by decide +kernel)))
  exact ⟨s', c, B, h1, h2, h3⟩

end Licant.Cxx
