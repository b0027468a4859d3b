/-
C142: `licant.makedir` registers a directory and its missing ancestors, and building it makes them.
-/
import Verif.Make.Default
import Verif.Make.Props

set_option autoImplicit false

namespace Licant.Make
open Licant.Py Licant.Core Relation

variable {E : Env} {lim : Nat} {α : Type}

/-- `q` is the directory `dir` or one of its missing ancestors. -/
def ToMake (E : Env) (dir q : String) : Prop := q = E.canon dir ∨ MissingDir E (E.canon dir) q

/-- a registered directory leads to the registered directories above it -/
theorem GoodD.up (hE : E.Sane) {c : MReg} (hg : GoodD E c) {b : Nat} (hk : c.kind b = .dir) (i : Nat)
    (hm : E.ex (anc (c.reg.obj b).tgt i) = false) :
    ∃ a, c.reg.targets.get (E.canon (anc (c.reg.obj b).tgt i)) = some a ∧ c.kind a = .dir ∧
      (c.reg.obj a).tgt = E.canon (anc (c.reg.obj b).tgt i) ∧ TransGen (ObjDep E.canon c.reg) b a := by
  induction i with
  | zero =>
    obtain ⟨a, h1, h2, h3⟩ := hg.par b (Or.inr hk) hm
    refine ⟨a, ?_, h2, h3, .single ⟨parent (c.reg.obj b).tgt, ?_, h1⟩⟩
    · rw [show anc (c.reg.obj b).tgt 0 = parent (c.reg.obj b).tgt from rfl, ← h3]
      rcases h1 with h | ⟨_, h⟩ <;> exact hg.self _ _ h
    · rw [hg.plainO b (Or.inr hk)]
      simp [plain, makeObj, show E.ex (parent (c.reg.obj b).tgt) = false from hm]
  | succ i ih =>
    obtain ⟨a, h1, h2, h3, h4⟩ := ih (missing_anc hE hm i (by omega))
    have h5 : parent (c.reg.obj a).tgt = E.canon (anc (c.reg.obj b).tgt (i + 1)) := by
      rw [h3]; exact hE.canonParent _ _ (missing_anc hE hm i (by omega))
    have hm' : E.ex (parent (c.reg.obj a).tgt) = false := by rw [h5, hE.exCanonAnc]; exact hm
    obtain ⟨a', h6, h7, h8⟩ := hg.par a (Or.inr h2) hm'
    have h9 : (c.reg.obj a').tgt = E.canon (anc (c.reg.obj b).tgt (i + 1)) := by rw [h8, h5, hE.idem]
    refine ⟨a', ?_, h7, h9, h4.tail ⟨parent (c.reg.obj a).tgt, ?_, h6⟩⟩
    · rw [← h9]
      rcases h6 with h | ⟨_, h⟩ <;> exact hg.self _ _ h
    · rw [hg.plainO a (Or.inr h2)]
      simp [plain, makeObj, hm']

/-- **C142**, registration: after `makedir(dir)` in a project described in the default core
* `dir` and each of its missing ancestors is a registered directory target, which depends exactly on its parent directory
  if that is missing and on nothing otherwise;
* every name that stood for a target before stands for a target of the same kind, name and dependencies;
* no other target is added. -/
theorem C142_makedir (hE : E.Sane) {w w' : World} {dir : String} (hw : DescribedD E lim w)
    (hr : ReasonableD E lim w.dflt (.makedir dir)) (h : callD E lim w (.makedir dir) = .ok w') :
    (∀ q, ToMake E dir q → ∃ b, w'.dflt.reg.targets.get q = some b ∧ w'.dflt.kind b = .dir ∧ (w'.dflt.reg.obj b).tgt = q ∧
      (w'.dflt.reg.obj b).deps = if E.ex (parent q) then [] else [parent q]) ∧
    (∀ n o, Resolves E.canon w.dflt.reg n o → ∃ o', Resolves E.canon w'.dflt.reg n o' ∧
      w'.dflt.kind o' = w.dflt.kind o ∧ w'.dflt.reg.obj o' = w.dflt.reg.obj o) ∧
    (∀ o, w.dflt.reg.next ≤ o → o < w'.dflt.reg.next → w'.dflt.kind o = .dir ∧ ToMake E dir (w'.dflt.reg.obj o).tgt) := by
  have hg := hw.good hE
  simp only [callD, Except.map] at h
  split at h
  · cases h
  · rename_i d h1
    cases h
    obtain ⟨hg', hfol, ⟨b, hb1, hb2, hb3⟩, hfresh⟩ := goodD_makedir hE hg hr h1
    have htgt : (d.reg.obj b).tgt = E.canon dir := by rw [hb3]; rfl
    have hdeps : ∀ a, d.kind a = .dir → (d.reg.obj a).deps =
        if E.ex (parent (d.reg.obj a).tgt) then [] else [parent (d.reg.obj a).tgt] := by
      intro a ha
      conv_lhs => rw [hg'.plainO a (Or.inr ha)]
      rfl
    refine ⟨?_, ?_, hfresh⟩
    · rintro q (rfl | ⟨i, hi, rfl⟩)
      · refine ⟨b, hb1, hb2, htgt, ?_⟩
        have := hdeps b hb2
        rwa [htgt] at this
      · rw [← htgt] at hi ⊢
        obtain ⟨a, h2, h3, h4, _⟩ := hg'.up hE hb2 i hi
        refine ⟨a, h2, h3, h4, ?_⟩
        have := hdeps a h3
        rwa [h4] at this
    · intro n o hno
      obtain ⟨o', h2, h3⟩ := hfol.2.2 n o hno
      refine ⟨o', h2, ?_⟩
      rcases h3 with rfl | ⟨h4, h5, h6⟩
      · obtain ⟨h4, h5⟩ := hfol.2.1 _ (hg.wf _ _ hno)
        exact ⟨h5, h4⟩
      · exact ⟨h5.trans h4.symm, by rw [hg'.plainO o' (Or.inr h5), hg.plainO o (Or.inr h4), h6]⟩

/-- **C142**, building: when a build of a target that needs the directory ends successfully, for instance `dir` itself, the
directory and those of its ancestors that were missing exist.  A build of `dir` itself changes nothing that exists. -/
theorem C142_build (hE : E.Sane) {w w' : World} {dir : String} (hw : DescribedD E lim w)
    (hr : ReasonableD E lim w.dflt (.makedir dir)) (h : callD E lim w (.makedir dir) = .ok w')
    {P : Proj α} (hreg : P.reg = w'.dflt.reg) (hkind : P.kind = w'.dflt.kind)
    (hpar : ∀ p q, q ∈ P.parents p → IsAnc q p) {root b : Nat} (hroot : Registered P.reg root)
    (hb : P.reg.targets.get (E.canon dir) = some b) (hrb : Closure E.canon P.reg root b)
    {fs0 : FS α} {cache0 : FileCache} (hacc : Accurate P fs0 cache0) {B : Invocation P E.canon root fs0 cache0}
    {clock0 : Nat} {tr : List (Ev α)} {s : St α} (hx : B.Run clock0 tr s) (hs : s.Succeeded) :
    (∀ q, ToMake E dir q → (s.fs q).isSome) ∧ (root = b → ∀ p e, fs0 p = some e → s.fs p = some e) := by
  have hw' : DescribedD E lim w' := .call _ hw hr h
  have hg' := hw'.good hE
  have hS := (C88_wellformed hE hw' P hreg hkind hpar).1
  obtain ⟨h1, _, _⟩ := C142_makedir hE hw hr h
  have hexist : ∀ a, Closure E.canon P.reg root a → P.kind a = .dir → (s.fs (P.path a)).isSome := by
    intro a ha hka
    obtain ⟨i, w, w', hi, hst, hf⟩ := Succeeded.finished hS hroot hx hs ha
    exact (beliefs hS hroot hacc hx).2 w i a hf hi hka
  obtain ⟨b', h2, h3, h4, _⟩ := h1 (E.canon dir) (Or.inl rfl)
  rw [← hreg] at h2 h4
  rw [hb] at h2
  cases h2
  refine ⟨?_, ?_⟩
  rotate_left
  · rintro rfl p e he
    rcases fs_change hx p with h | ⟨i, v, o, _, _, _, h5, h6, _⟩ | ⟨h, _⟩
    · rw [h, he]
    · exfalso
      rcases ReflTransGen.cases_head (B.closure hS hroot h5) with rfl | h7
      · rw [hkind, h3] at h6; cases h6
      · obtain ⟨c, h7, h8⟩ := h7
        rw [dir_trans hS (Or.inr (by rw [hkind]; exact h3)) (.head' h7 h8)] at h6; cases h6
    · rw [he] at h; cases h
  rintro q (rfl | ⟨i, hi, rfl⟩)
  · have := hexist b hrb (by rw [hkind]; exact h3)
    rwa [Proj.path, h4] at this
  · rw [← h4, hreg] at hi ⊢
    obtain ⟨a, h5, h6, h7, h8⟩ := hg'.up hE h3 i hi
    have := hexist a (hrb.trans (by rw [hreg]; exact h8.to_reflTransGen)) (by rw [hkind]; exact h6)
    rwa [Proj.path, hreg, h7] at this

/-! ### an example: `makedir("/s/out/d")` -/

/-- the default core after it -/
def mkdirReg : MReg := (licantReg.add (makeObj "/s/out" []) .dir).add (makeObj "/s/out/d" ["/s/out"]) .dir

theorem mkdir_reasonable : ReasonableD srcEnv 50 licantReg (.makedir "/s/out/d") := by
  have hA : ∀ a ∈ ["/s/out", "/s", "/"], parent a ∈ ["/s/out", "/s", "/"] := by decide +kernel
  have hmem : ∀ i, anc "/s/out/d" i ∈ ["/s/out", "/s", "/"] := anc_mem hA (by decide +kernel)
  have hnone : ∀ p o, p ∈ ["/s/out/d", "/s/out", "/s", "/"] → ¬ Resolves srcEnv.canon licantReg.reg p o := by
    intro p o hp hr
    have hr : licantReg.reg.targets.get p = some o := by
      rcases hr with h | ⟨_, h⟩ <;> exact h
    have h1 := (licantReg_get hr).2.2
    revert hp h1
    simp only [List.mem_cons, List.not_mem_nil, or_false]
    rintro (rfl | rfl | rfl | rfl) <;> decide +kernel
  have hfile : ∀ a, ¬ FileLike (licantReg.kind a) := by
    rintro a (h | h) <;> rw [licantReg_kind] at h <;> cases h
  refine ⟨⟨by decide +kernel, ?_⟩, by decide +kernel, by decide +kernel, ⟨fun a q ha => absurd ha (hfile a), ?_⟩,
    fun a ha => absurd ha (hfile a), fun o ho => absurd ho (hnone _ o (by decide +kernel))⟩
  · rintro q ⟨i, _, rfl⟩
    have := hmem i
    revert this
    show anc "/s/out/d" i ∈ _ → '*' ∉ (anc "/s/out/d" i).toList
    generalize anc "/s/out/d" i = x
    simp only [List.mem_cons, List.not_mem_nil, or_false]
    rintro (rfl | rfl | rfl) <;> decide +kernel
  · rintro i o _ (h | h) <;> exact absurd h (hnone _ o (List.mem_cons_of_mem _ (hmem i)))

/-- the assumptions of `C142_makedir` -/
example : DescribedD srcEnv 50 ⟨licantReg, noReg⟩ ∧ ReasonableD srcEnv 50 licantReg (.makedir "/s/out/d") ∧
    callD srcEnv 50 ⟨licantReg, noReg⟩ (.makedir "/s/out/d") = .ok ⟨mkdirReg, noReg⟩ ∧
    ToMake srcEnv "/s/out/d" "/s/out/d" ∧ ToMake srcEnv "/s/out/d" "/s/out" :=
  ⟨.new noReg, mkdir_reasonable, rfl, Or.inl rfl, Or.inr ⟨0, by decide +kernel, by decide +kernel⟩⟩

def mkdirProj : Proj Nat := ⟨mkdirReg.reg, mkdirReg.kind, fun _ => false, fun _ => .ok true, fun _ _ => 7, fun _ => []⟩

def mkdirFs : FS Nat := fun p => if p = "/s" then some ⟨5, none⟩ else none

theorem mkdir_all : ∀ o, o ∈ [4, 5] ↔ Registered mkdirProj.reg o ∧ (mkdirProj.reg.obj o).upd = true := by
  intro o
  constructor
  · intro h
    have h3 : o = 4 ∨ o = 5 := by simpa using h
    rcases h3 with rfl | rfl
    · exact ⟨⟨"/s/out", by decide +kernel⟩, by decide +kernel⟩
    · exact ⟨⟨"/s/out/d", by decide +kernel⟩, by decide +kernel⟩
  · rintro ⟨⟨n, hn⟩, hu⟩
    have hlt : o < 6 := (DescribedD.good (lim := 50) srcEnv_sane (w := ⟨mkdirReg, noReg⟩)
      (.call _ (.new noReg) mkdir_reasonable rfl)).lt n o hn
    have : o = 0 ∨ o = 1 ∨ o = 2 ∨ o = 3 ∨ o = 4 ∨ o = 5 := by omega
    rcases this with rfl | rfl | rfl | rfl | rfl | rfl <;> (revert hu; decide +kernel)

def mkdirB : Invocation mkdirProj srcEnv.canon 5 mkdirFs [] := .of (lim := 10) (lim' := 10) (n := 1) _ mkdir_all rfl rfl rfl

/-- the build of `/s/out/d` -/
example : ∃ s, mkdirB.Run 9 [.sched (.start 0 0), .sched (.finish 0 0 .ok), .sched (.start 0 1), .sched (.finish 0 1 .ok)] s ∧
    s.Succeeded ∧ mkdirFs "/s/out" = none ∧ s.fs "/s/out" = some ⟨9, none⟩ ∧ s.fs "/s/out/d" = some ⟨9, none⟩ ∧
    s.fs "/s" = some ⟨5, none⟩ :=
  ⟨_, run_iff.2 rfl, ⟨rfl, rfl⟩, rfl, rfl, rfl, rfl⟩

end Licant.Make
