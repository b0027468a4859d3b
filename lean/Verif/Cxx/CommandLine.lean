/-
C121 for C++ programs: the command line of a script that calls `application`, `shared_library` or `static_library`.
-/
import Verif.Cxx.Twice
import Verif.Misc.Command

set_option autoImplicit false

namespace Licant.Cxx
open Licant.Py Licant.Core Licant.Make Relation
open Licant.Misc (Proc Ready New Prog procProg withReg Wants Asks Looked buildActions)

variable {S : Site} {L : LReg} {M : Parts} {lh tgt : String} {opts : CxxOpts} {x : Nat} {F A : List String}

/-- everything that the default core refers to is registered -/
theorem _root_.Licant.Make.GoodD.full {E : Env} {c : MReg} (hg : GoodD E c) : FullyRegistered E.canon c.reg := by
  intro o ho d hd
  by_cases h : o < c.reg.next
  · obtain ⟨o', h1, _⟩ := hg.deps o h d hd
    exact ⟨o', h1⟩
  · rw [(hg.blank o (by omega)).1] at hd
    cases hd

/-- **C121** for C++ programs.  A script describes a program (`Program`, see C96) and calls `licant.ex` with the target; the command
line has no arguments but perhaps `-j`.  Then the program is built, with the number of workers asked for; the build can only stop by
returning (unless a work function raised), and if it succeeds then every made file that is used for the program exists, and none
of the existing files it is made from is newer. -/
theorem C121_program {α : Type} (hE : S.env.Sane) (hp : Program S L M lh tgt opts x F A) {P : Proj α} (hP : L.Is P)
    (hpar : ∀ p q, q ∈ P.parents p → IsAnc q p)
    (hplain : ∀ o o', Registered P.reg o → P.kind o = .other → (P.reg.obj o).upd = true → ObjDep S.env.canon P.reg o o' →
      (P.reg.obj o').upd = true)
    (hother : ∀ o, Registered P.reg o → P.kind o = .other → (P.reg.obj o).upd = true → ∃ b, P.upd o = .ok b)
    {setOrder : List Nat → List Nat} {order : Nat → List Nat → List Nat} (hso : ∀ l, (setOrder l).Perm l) (ho : Solver.IsOrder order)
    {lim : Nat} (hl : (allDeps P.reg).length + 1 < lim) (hl' : P.reg.targets.length < lim)
    {routine : Nat → Bool} {actions : Nat → List String} {hasattr : Nat → String → Bool} (hattr : hasattr x "makefile" = true)
    {other : Core.Call → Misc.RunSt → Except Core.Err Misc.RunSt}
    {s : Proc α} (hn : New P s) {cpu : Option Nat} {opt : String} {z : Int} (hz : Wants cpu opt z) :
    ∃ s' c, ∃ B : Invocation (withReg P c) S.env.canon x s.fs s.files,
      (procProg P S.env.canon setOrder order lim routine actions hasattr other).cliJobs Proc.setThreads cpu opt (some tgt) [] s =
        .ok s' ∧
      s'.run.started = s.run.started ++ [(B.objs, B.ds, B.g, B.n)] ∧ s'.marks.need = B.need ∧ s'.files = B.cache1 ∧ s'.fs = s.fs ∧
      B.n = z.toNat ∧
      ∀ clock tr st, B.Run clock tr st →
        (0 < z → (∀ w t, Solver.Ev.finish w t .raise ∉ sched tr) →
          (∀ e, Make.step (withReg P c) B.need B.objs B.g st (.sched e) = none) → st.sol.returned) ∧
        ((∀ p e, s.fs p = some e → e.mtime ≤ clock) → Productive B tr → st.Succeeded →
          ∀ f, f ∈ M.made ∨ f = tgt → Used S M tgt (S.env.canon f) →
            ∃ e, st.fs (S.env.canon f) = some e ∧
              ∀ g, Needs S M tgt f g → ∀ e', st.fs (S.env.canon g) = some e' → e'.mtime ≤ e.mtime) := by
  obtain ⟨hreg, hkind, hforce⟩ := hP
  obtain ⟨hS, _⟩ := hp.good.sound hE P hreg hkind hpar
  have hres : Resolves S.env.canon P.reg tgt x := by rw [hreg]; exact hp.named _ rfl
  have hkx : P.kind x = .file := by rw [hkind]; exact hp.kind
  have hdef : (P.reg.obj x).defaultAction = "makefile" := by rw [hreg, hp.is]; rfl
  have hk : Asks (procProg P S.env.canon setOrder order lim routine actions hasattr other) P.reg (some tgt) [] ⟨x, "makefile", []⟩ := by
    rw [← hdef]; exact .nothing rfl hres
  have hupd : ∀ o o', Registered P.reg o → (P.reg.obj o).upd = true → ObjDep S.env.canon P.reg o o' → (P.reg.obj o').upd = true := by
    intro o o' hro hu hd
    by_cases hko : P.kind o = .other
    · exact hplain o o' hro hko hu hd
    · obtain ⟨d, h1, h2⟩ := hd
      obtain ⟨n, hn⟩ := hro
      rw [hreg] at h1 h2 hn ⊢
      obtain ⟨b, h3, _, h4⟩ := hp.good.deps o (hp.good.lt n o hn) d h1
      cases h2.unique h3
      rw [hkind] at hko
      exact hp.good.upd _ (h4.resolve_left hko)
  obtain ⟨s', h⟩ := Misc.C121_starts (routine := routine) (actions := actions) (other := other) hE.idem hso ho hS
    (by rw [hreg]; exact hp.good.full) hupd hother hl hl' hn hz hk rfl
    (by simp [buildActions]) hattr
  have hready : Ready P S.env.canon s :=
    ⟨hn.core, fun t b => by rw [hn.cache]; rfl, by rw [hn.marks]; exact coherent_noMarks, by rw [hn.files]; exact accurate_nil _ _⟩
  obtain ⟨c, B, hlk, h1, h2, h3, h4, h5, _, h6⟩ := Misc.C121_build hE.idem hso ho hS hready hz hk rfl (by simp [buildActions])
    (by rw [hkx]; simp) h
  refine ⟨s', c, B, h, h1, h2, h3, h4, h5, fun clock tr st hx => ⟨(h6 clock tr st hx).2.1, fun ht hpr hs f hf hu => ?_⟩⟩
  have hfresh := (h6 clock tr st hx).2.2 ht hpr hs
  have hpath : ∀ o, P.path o = (L.m.reg.obj o).tgt := fun o => by rw [← hreg]
  have hfF : f ∈ F := hp.fit f (by
    rcases hf with hf | rfl
    · simp [hf]
    · simp)
  obtain ⟨a, _, ha, hak, _⟩ := hp.recipe hf
  obtain ⟨f', b', hf', he, hb', hcl⟩ := hp.used hE hu
  have : b' = a := hp.good.same hE.idem hb' ha (fileLike_ne (hp.room.known _ hf' _ hb')).2
    (fileLike_ne (hp.room.known _ hfF _ ha)).2 he.symm
  subst this
  rw [← hreg] at hcl
  obtain ⟨e, h7, h8⟩ := hfresh b' hcl (by rw [hkind]; exact hak)
  rw [hpath, hp.path hE ha (Or.inl hak)] at h7
  refine ⟨e, h7, fun g hng e' he' => ?_⟩
  obtain ⟨a', b, ha', _, hb, hbk, hd⟩ := hp.needs hng
  cases Resolves.unique ha ha'
  refine h8 b e' ?_ (by rw [hpath, hp.path hE hb hbk]; exact he')
  have hbk' : P.kind b = .file ∨ P.kind b = .source := by rw [hkind]; exact hbk
  unfold Direct at hd
  rw [← hreg, ← hkind] at hd
  rcases hd with hd | ⟨l, h9, h10, h11⟩
  · exact .direct hd hbk'
  · exact .through h9 h10 (.direct h11 hbk')

end Licant.Cxx
