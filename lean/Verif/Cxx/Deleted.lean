/-
Headers that are deleted.  C153.
-/
import Verif.Cxx.ProgramDemo
import Verif.Make.Deleted

set_option autoImplicit false

namespace Licant.Cxx
open Licant.Py Licant.Core Licant.Make Relation

variable {S : Site} {L : LReg} {M : Parts} {lh tgt : String} {opts : CxxOpts} {x : Nat} {F A : List String}

/-- **C153**, what holds: the program `x` is up to date, then the header `h`, which some dependency file lists, is deleted.
The build does not fail because of it.  A successful build compiles every unit whose dependency file lists `h`, and writes this dependency file
anew; no execution compiles a unit that does not use `h`, if everything is made in the module itself.  The header is not made again.
Missing: the directory of the header is made again if it is missing as well (`C153_violated`). -/
theorem C153_partial {α : Type} (hE : S.env.Sane) (hp : Program S L M lh tgt opts x F A) {P : Proj α} (hP : L.Is P)
    (hpar : ∀ p q, q ∈ P.parents p → IsAnc q p) {fs1 : FS α} (hup : ¬ NeedsWork P S.env.canon (fileinfo fs1) x)
    {v : CUnit} (hv : v ∈ M.us) {h : String} (hh : h ∈ S.hdrs v.2.2) {z : Nat} (hz : Resolves S.env.canon L.m.reg h z)
    (hzk : L.m.kind z = .source) {cache0 : FileCache} (hacc : Accurate P (deleted fs1 (P.path z)) cache0)
    {B : Invocation P S.env.canon x (deleted fs1 (P.path z)) cache0} {clock0 : Nat} {tr : List (Ev α)} {s : St α} (hx : B.Run clock0 tr s) :
    (∀ w i r, Solver.Ev.finish w i r ∈ sched tr → B.objs[i]? = some z → r = .ok) ∧ s.fs (P.path z) = none ∧
    ∀ u ∈ M.us, ∀ xo y, Names S.env L.m u.2.1 xo → Names S.env L.m u.2.2 y →
      (s.Succeeded → h ∈ S.hdrs u.2.2 → xo ∈ B.commands tr ∧ y ∈ B.commands tr) ∧
      (SelfContained S L M → xo ∈ B.commands tr → UsedBy S L M u z) := by
  obtain ⟨hreg, hkind, hforce⟩ := hP
  obtain ⟨hS, _⟩ := hp.good.sound hE P hreg hkind hpar
  have hroot : Registered P.reg x := by
    rw [hreg]
    rcases hp.named _ rfl with h | ⟨_, h⟩ <;> exact ⟨_, h⟩
  have hkx : P.kind x = .file := by rw [hkind]; exact hp.kind
  have hstar : ∀ u ∈ M.us, ∀ f ∈ CUnit.files S u, '*' ∉ f.toList := by
    intro u hu f hf
    refine hp.star ?_
    simp only [List.mem_append, Parts.made]
    rcases List.mem_append.1 hf with hf | hf
    · exact Or.inl (Or.inl (Or.inr (List.mem_flatMap.2 ⟨u, hu, hf⟩)))
    · exact Or.inl (Or.inl (Or.inl (Or.inr (Or.inr (List.mem_flatMap.2 ⟨u, hu, hf⟩)))))
  -- units that list the header depend on it
  have hdep : ∀ u ∈ M.us, h ∈ S.hdrs u.2.2 → ∀ xo y, Compiled S L opts (M.adds lh) u xo y →
      ObjDep S.env.canon P.reg x xo ∧ ObjDep S.env.canon P.reg xo y ∧ ObjDep S.env.canon P.reg xo z ∧ ObjDep S.env.canon P.reg y z := by
    intro u hu hl xo y hc
    have hsh := hstar u hu h (by simp [CUnit.files, CUnit.ins, hl])
    have hsd := hstar u hu u.2.2 (by simp [CUnit.files, CUnit.outs])
    rw [hreg]
    refine ⟨hp.links hu hc, hc.dep (mem_globs (by simp) hsd) (hc.depNames _ rfl), hc.dep (mem_globs (by simp [hl]) hsh) hz, h, ?_, hz⟩
    rw [hc.depIs]
    exact List.mem_append_left _ (mem_globs (by simp [hl]) hsh)
  obtain ⟨vo, vy, hcv⟩ := hp.units v hv
  obtain ⟨e1, _, e3, _⟩ := hdep v hv hh vo vy hcv
  obtain ⟨h1, h2, h3, h4⟩ := C153_dependents hS hroot (by rw [hkx]; simp) hup (x := z) (.tail (.single e1) e3) (by rw [hkind]; exact hzk) hacc hx
  refine ⟨h3, h4, ?_⟩
  intro u hu xo y hxo hy
  obtain ⟨xo', y', hc⟩ := hp.units u hu
  have : xo = xo' := Resolves.unique (hxo _ rfl) (hc.objNames _ rfl)
  subst this
  have : y = y' := Resolves.unique (hy _ rfl) (hc.depNames _ rfl)
  subst this
  constructor
  · intro hs hl
    obtain ⟨d1, d2, d3, d4⟩ := hdep u hu hl xo y hc
    exact ⟨(h2 hs xo).2 ⟨.single d1, by rw [hkind]; exact hc.kinds.1, .single d3⟩,
      (h2 hs y).2 ⟨.tail (.single d1) d2, by rw [hkind]; exact hc.kinds.2, .single d4⟩⟩
  · intro hself hcmd
    obtain ⟨_, _, h5⟩ := h1 xo hcmd
    rw [hreg] at h5
    exact hp.only hE hself hu hc hzk h5

end Licant.Cxx
