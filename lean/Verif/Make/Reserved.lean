/-
The names of the targets that licant registers for itself.
C116: a file that has such a name cannot be copied by that name; files with all other names can.
-/
import Verif.Make.Returns
import Verif.Make.Tree

set_option autoImplicit false

namespace Licant.Make
open Licant.Py Licant.Core Relation

variable {E : Env} {lim : Nat}

/-! ### a build with a target that cannot be updated -/

/-- A build in which a target that make.py does not know and that is no `UpdatableTarget` takes part does not succeed: its work
function raises (core.py:355-362). -/
theorem plain_fails {α : Type} {P : Proj α} {canon : String → String} {root o : Nat} {fs : FS α} {cache : FileCache}
    (hself : Resolves canon P.reg (P.reg.obj root).tgt root) (hc : Closure canon P.reg root o) (hk : P.kind o = .other)
    (hu : (P.reg.obj o).upd = false) (B : Invocation P canon root fs cache) {clock : Nat} {tr : List (Ev α)} {s : St α}
    (h : B.Run clock tr s) : ¬ s.Succeeded := by
  intro hs
  obtain ⟨setOrder, order, lim, ca, rt, threads, h1, h2, h3, h4⟩ := B.prepared
  obtain ⟨cache', hp, hg, _⟩ := recurseUpdate_ok h4
  have Pr := prepare_ok h1 hself h3 hp
  obtain ⟨i, hi⟩ := List.getElem?_of_mem ((Pr.mem o).2 hc)
  obtain ⟨hall, _⟩ := Solver.C03_true_means_all_done h2 hg h.exec hs.1 hs.2
  obtain ⟨-, w, hw⟩ := hall i (by rw [Pr.len]; exact (List.getElem?_eq_some_iff.1 hi).1)
  have key : ∀ (tr : List (Ev α)) (s : St α), Make.Run P B.need B.objs B.g (B.start clock) tr s →
      Ev.sched (.finish w i .ok) ∉ tr := by
    intro tr s h
    induction h with
    | nil => simp
    | @snoc tr s e s' _ hst ih =>
      intro hm
      rcases List.mem_append.1 hm with hm | hm
      · exact ih hm
      · rw [List.mem_singleton] at hm
        subst hm
        simp only [step] at hst
        split at hst
        · cases hst
        rw [hi] at hst
        simp [finishEffect, hk, work, hu] at hst
  exact key tr s h (mem_sched.1 hw)

/-! ### specification -/

/-- `n` is the name of a target that make.py does not know and that cannot be updated -/
def Reserved (E : Env) (c : MReg) (n : String) : Prop :=
  ∃ o, Resolves E.canon c.reg n o ∧ c.kind o = .other ∧ (c.reg.obj o).upd = false

/-- canonical paths begin with a slash -/
def AbsCanon (E : Env) : Prop := ∀ p, (E.canon p).toList.head? = some '/'

/-! ### proofs -/

theorem isabs_dirname {p : Path.Str} (h : p.head? = some '/') : (Path.dirname p).head? = some '/' := by
  obtain ⟨t, rfl⟩ : ∃ t, p = '/' :: t := by
    cases p with
    | nil => cases h
    | cons c t => simp only [List.head?_cons, Option.some.injEq] at h; exact ⟨t, by rw [h]⟩
  obtain ⟨y, hy⟩ : ∃ y, Path.head ('/' :: t) = '/' :: y := by
    unfold Path.head
    rw [List.reverse_cons, List.dropWhile_append]
    split
    · exact ⟨[], by simp⟩
    · exact ⟨(List.dropWhile (fun c => decide (c ≠ '/')) t.reverse).reverse, by simp⟩
  unfold Path.dirname
  rw [hy]
  split
  · rfl
  · rename_i hall
    unfold Path.rstrip
    rw [List.reverse_cons, List.dropWhile_append]
    split
    · rename_i he
      exfalso
      apply hall
      rw [List.isEmpty_iff, List.dropWhile_eq_nil_iff] at he
      rw [List.all_eq_true]
      intro c hc
      rcases List.mem_cons.1 hc with rfl | hc
      · simp
      · exact he c (by simpa using hc)
    · simp

/-- the directories of an absolute path are absolute -/
theorem anc_slash {p : String} (h : p.toList.head? = some '/') (i : Nat) : (anc p i).toList.head? = some '/' := by
  have step : ∀ q : String, q.toList.head? = some '/' → (parent q).toList.head? = some '/' := by
    intro q hq
    have h1 := (Path.comps_normpath (Path.dirname q.toList)).1
    unfold parent
    rw [String.toList_ofList]
    unfold Path.parent
    unfold Path.isabs at h1
    rw [isabs_dirname hq] at h1
    simpa using h1
  induction i with
  | zero => exact step p h
  | succ i ih => rw [← parent_anc]; exact step _ ih

theorem slash_not_licant {n : String} (h : n.toList.head? = some '/') : n ∉ licantNames := by
  intro hn
  simp only [licantNames, List.mem_cons, List.not_mem_nil, or_false] at hn
  rcases hn with rfl | rfl | rfl | rfl <;> revert h <;> decide +kernel

/-- `AbsCanon` holds of every process with a file system without dangling links. -/
theorem absCanon_of_realises {T : Fs.Tree} {cwd : List Path.Str} (h : Fs.Realises T cwd E) (hT : Fs.NoDangling T) : AbsCanon E := by
  intro p
  obtain ⟨q, _, hq⟩ := h.real hT p
  rw [hq, String.toList_ofList]
  rfl

theorem licantReg_reserved {n : String} (hn : n ∈ licantNames) : Reserved E licantReg n := by
  simp only [licantNames, List.mem_cons, List.not_mem_nil, or_false] at hn
  rcases hn with rfl | rfl | rfl | rfl
  · exact ⟨0, Or.inl (by decide +kernel), rfl, rfl⟩
  · exact ⟨1, Or.inl (by decide +kernel), rfl, rfl⟩
  · exact ⟨2, Or.inl (by decide +kernel), rfl, rfl⟩
  · exact ⟨3, Or.inl (by decide +kernel), rfl, rfl⟩

/-- the names stay reserved, whatever is described -/
theorem described_reserved (hE : E.Sane) {w : World} (h : DescribedD E lim w) {n : String} (hn : n ∈ licantNames) :
    Reserved E w.dflt n := by
  induction h with
  | new own => exact licantReg_reserved hn
  | call cl hd hr hc ih =>
    obtain ⟨o, h1, h2, h3⟩ := ih
    have hg := hd.good hE
    obtain ⟨-, hf⟩ := goodD_call hE hg hr hc
    obtain ⟨o', h4, rfl | ⟨h5, _⟩⟩ := hf.2.2 n o h1
    · obtain ⟨h6, h7⟩ := hf.2.1 o' (hg.wf _ _ h1)
      exact ⟨o', h4, by rw [h7]; exact h2, by rw [h6]; exact h3⟩
    · rw [h2] at h5; cases h5

/-- **C116 is false** of the code.  In every project described by reasonable calls, for every file with the name of a target that
licant registers for itself (`binutils`, `m`, `cxxm`, `l`): the call `copy(tgt, src)` with this name for `src` and any other
path for `tgt` returns, but the file is not registered, the target `tgt` depends on the target of licant, and no build of
`tgt` succeeds. -/
theorem C116_violated (hE : E.Sane) (habs : AbsCanon E) {w w' : World} (h : DescribedD E lim w) {n tgt : String}
    (hn : n ∈ licantNames) (hx : E.ex n = true) (hh : E.home n = n) (hs : NoStar E (E.home tgt))
    (hne : E.canon (E.home tgt) ≠ E.canon n) {adddeps : List String}
    (hc : copyG E lim w tgt n adddeps false = .ok w') :
    (∀ o, Resolves E.canon w'.dflt.reg n o → w'.dflt.kind o = .other) ∧
    ∃ root, Resolves E.canon w'.dflt.reg (E.canon (E.home tgt)) root ∧ w'.dflt.kind root = .file ∧ n ∈ (w'.dflt.reg.obj root).deps ∧
      ∀ {α : Type} (P : Proj α), P.reg = w'.dflt.reg → P.kind = w'.dflt.kind →
        ∀ (fs : FS α) (cache : FileCache) (B : Invocation P E.canon root fs cache) (clock : Nat) (tr : List (Ev α)) (s : St α),
          B.Run clock tr s → ¬ s.Succeeded := by
  have hslash : ∀ p, E.canon p ≠ n := fun p e => slash_not_licant (habs p) (by rw [e]; exact hn)
  obtain ⟨o, hr, hk, hu⟩ := described_reserved hE h hn
  have hwf := (h.good hE).wf
  have hlt := hwf _ _ hr
  unfold copyG at hc
  simp only [hh] at hc
  split at hc
  · cases hc
  rename_i d h1
  unfold sourceG at h1
  simp only [has_true.2 ⟨o, hr⟩, if_true] at h1
  cases h1
  have k1 := keeps_has hE.idem w.dflt n (MissingDir E (E.canon (E.home tgt)))
    (fun ob k => DirFor E (E.canon (E.home tgt)) ob k ∨ SrcFor E (n :: adddeps) ob k)
  unfold makefileG at hc
  split at hc
  · cases hc
  rename_i d t ds h2
  cases hc
  obtain ⟨rfl, rfl, k2⟩ := fileInit_keeps hE _ _ _ _ _ _ _ _ hs h2
  have k := k1.trans k2
  have hmiss : ¬ MissingDir E (E.canon (E.home tgt)) (E.canon n) := by
    rintro ⟨i, h3, h4⟩
    have h5 := hE.exCanon n hx
    rw [h4, hE.exCanonAnc] at h5
    rw [h3] at h5; cases h5
  have hr' := k.keep n o hr hmiss
  obtain ⟨ho1, ho2⟩ := k.obj o hlt
  have hlt' : o < d.reg.next := lt_of_lt_of_le hlt k.next
  have hidem : E.canon (E.canon (E.home tgt)) = E.canon (E.home tgt) := hE.idem _
  generalize hob : makeObj (E.canon (E.home tgt)) (globs E (n :: adddeps) ++ dirDep E true (E.canon (E.home tgt))) = ob
  have htgt : ob.tgt = E.canon (E.home tgt) := by rw [← hob]; rfl
  have hr2 : Resolves E.canon (d.add ob .file).reg n o := by
    rw [add_resolves (by rw [htgt]; exact hidem) (by rw [htgt]; exact Ne.symm hne)]
    exact hr'
  have hroot : (d.add ob .file).reg.targets.get (E.canon (E.home tgt)) = some d.reg.next := by
    show (d.reg.targets.set ob.tgt d.reg.next).get _ = _
    rw [htgt]; simp
  have hkeep : (d.add ob .file).kind o = .other ∧ ((d.add ob .file).reg.obj o).upd = false := by
    have : o ≠ d.reg.next := by omega
    simp [MReg.add, Core.add, this, ho1, ho2, hk, hu]
  have hobj : (d.add ob .file).reg.obj d.reg.next = ob := by simp [MReg.add, Core.add]
  have hdep : n ∈ ob.deps := by
    have hstar : '*' ∉ n.toList := by
      simp only [licantNames, List.mem_cons, List.not_mem_nil, or_false] at hn
      rcases hn with rfl | rfl | rfl | rfl <;> decide +kernel
    rw [← hob]
    simp [makeObj, globs, hstar]
  refine ⟨fun o' ho' => by rw [ho'.unique hr2]; exact hkeep.1, d.reg.next, ?_, by simp [World.addTo, MReg.add], ?_, ?_⟩
  · exact Or.inl hroot
  · show n ∈ ((d.add ob .file).reg.obj d.reg.next).deps
    rw [hobj]; exact hdep
  · intro α P e1 e2 fs cache B clock tr s hrun
    have e1 : P.reg = (d.add ob .file).reg := e1
    have e2 : P.kind = (d.add ob .file).kind := e2
    refine plain_fails ?_ (.single ⟨n, ?_, by rw [e1]; exact hr2⟩) (by rw [e2]; exact hkeep.1) (by rw [e1]; exact hkeep.2) B hrun
    · rw [e1, hobj, htgt]; exact Or.inl hroot
    · rw [e1, hobj]; exact hdep

/-- the missing directories of an existing file: none -/
theorem no_missing (hE : E.Sane) {p : String} (hx : E.ex p = true) (i : Nat) : E.ex (anc (E.canon p) i) = true := by
  induction i with
  | zero => exact hE.exParent p hx
  | succ i ih => exact hE.up _ i ih

/-- C116, what holds: after `import licant`, for all files with other names and all new targets the call `copy(tgt, src)` is a
reasonable one in the sense of C88 (so that the theorems about builds hold of the project), the file is registered as
a source, and the target depends on it.
It is supposed that there are no patterns in the paths, that the target is none of its own missing directories or above them,
and that the file is not the target nor above one of its missing directories.
Missing: the four names (`C116_violated`). -/
theorem C116_partial (hE : E.Sane) {own : MReg} {w' : World} {src tgt : String}
    (habs : AbsCanon E) (hn : E.home src ∉ licantNames)
    (hx : E.ex (E.home src) = true) (hsn : '*' ∉ (E.home src).toList) (hss : '*' ∉ (E.canon (E.home src)).toList)
    (hs : NoStar E (E.home tgt))
    (hne : E.canon (E.home src) ≠ E.canon (E.home tgt))
    (hown : ∀ q, MissingDir E (E.canon (E.home tgt)) q → E.canon (E.home tgt) ≠ q ∧ ¬ IsAnc (E.canon (E.home tgt)) q ∧
      ¬ IsAnc (E.canon (E.home src)) q)
    (hc : copyG E lim ⟨licantReg, own⟩ tgt src [] false = .ok w') :
    DescribedD E lim w' ∧
    ∃ root o, Resolves E.canon w'.dflt.reg (E.canon (E.home tgt)) root ∧ w'.dflt.kind root = .file ∧
      Resolves E.canon w'.dflt.reg (E.home src) o ∧ w'.dflt.kind o = .source ∧
      (w'.dflt.reg.obj o).tgt = E.canon (E.home src) ∧ E.home src ∈ (w'.dflt.reg.obj root).deps := by
  have hcn : ∀ p, E.canon p ∉ licantNames := fun p => slash_not_licant (habs p)
  have hanc : ∀ p i, anc (E.canon p) i ∉ licantNames := fun p i => slash_not_licant (anc_slash (habs p) i)
  have hlic : ∀ n o, Resolves E.canon licantReg.reg n o → n ∈ licantNames := by
    rintro n o (h | ⟨_, h⟩)
    · exact (licantReg_get h).2.2
    · exact absurd (licantReg_get h).2.2 (hcn n)
  have hdir0 : ∀ b, licantReg.kind b ≠ .dir := fun b h => by rw [licantReg_kind] at h; cases h
  have hnomiss : ∀ q, ¬ MissingDir E (E.canon (E.home src)) q := by
    rintro q ⟨i, h, _⟩
    rw [no_missing hE hx i] at h; cases h
  have hns : NoStar E (E.home src) := ⟨hss, fun q hq => absurd hq (hnomiss q)⟩
  have hfit : FitsD E licantReg (E.home src) :=
    ⟨hns, fun o ho => hcn _ (hlic _ o ho), fun q hq => absurd hq (hnomiss q), fun b hb => absurd hb (hdir0 b),
      fun a q _ hq => absurd hq (hnomiss q), fun i o hi _ => by rw [no_missing hE hx i] at hi; cases hi⟩
  have hexc : E.ex (E.canon (E.home src)) = true := hE.exCanon _ hx
  have hgl : globs E [E.home src] = [E.home src] := by simp [globs, hsn]
  have key : ∀ d, sourceG E lim licantReg (E.home src) [] = .ok d → GoodD E d ∧
      (∀ n o, Resolves E.canon d.reg n o → n ∈ licantNames ∧ Resolves E.canon licantReg.reg n o ∨
        d.kind o = .source ∧ (d.reg.obj o).tgt = E.canon (E.home src) ∧ E.canon n = E.canon (E.home src)) ∧
      (∀ b, d.kind b ≠ .other → d.kind b = .source ∧ (d.reg.obj b).tgt = E.canon (E.home src)) ∧
      ∃ o, Resolves E.canon d.reg (E.home src) o := by
    intro d hd
    obtain ⟨k, ho⟩ := sourceG_keeps hE hns (hnomiss _) hd
    have hg := (goodD_source hE goodD_licantReg (Or.inr hfit) hd).1
    have hfresh : ∀ o, licantReg.reg.next ≤ o → o < d.reg.next →
        d.kind o = .source ∧ (d.reg.obj o).tgt = E.canon (E.home src) := by
      intro o h1 h2
      rcases k.fresh o h1 h2 with ⟨_, q, hq, _⟩ | ⟨h3, h4⟩
      · exact absurd hq (hnomiss q)
      · exact ⟨h3, by rw [h4]; rfl⟩
    refine ⟨hg, fun n o hr => ?_, fun b hb => ?_, ho⟩
    · rcases k.new n o hr with h | ⟨h1, h2, h3⟩
      · exact Or.inl ⟨hlic n o h, h⟩
      · obtain ⟨h4, h5⟩ := hfresh o h1 h2
        exact Or.inr ⟨h4, h5, by rw [← h5, h3]⟩
    · by_cases h1 : b < licantReg.reg.next
      · rw [(k.obj b h1).2, licantReg_kind] at hb
        exact absurd rfl hb
      · exact hfresh b (by omega) (hg.old hb)
  have hr : ReasonableD E lim licantReg (.copy tgt src []) := by
    refine ⟨Or.inr hfit, fun d hd => ?_⟩
    obtain ⟨hg, hnew, hkind, o, ho⟩ := key d hd
    have hnd : ∀ b, d.kind b ≠ .dir := fun b hb => by
      have := (hkind b (by rw [hb]; simp)).1
      rw [hb] at this; cases this
    refine ⟨⟨hs, fun o ho => ?_, fun q hq => ⟨(hown q hq).1, (hown q hq).2.1⟩, fun b hb => absurd hb (hnd b),
      fun a q ha hq => ?_, fun i o hi ho => ?_⟩, fun r hr => ?_⟩
    · rcases hnew _ o ho with ⟨h, _⟩ | ⟨_, _, h⟩
      · exact hcn _ h
      · rw [hE.idem] at h; exact hne h.symm
    · have ha' : d.kind a ≠ .other := by rcases ha with h | h <;> rw [h] <;> simp
      rw [(hkind a ha').2]
      exact (hown q hq).2.2
    · exfalso
      rcases ho with ho | ho
      · rcases hnew _ o ho with ⟨h, _⟩ | ⟨_, _, h⟩
        · exact hanc _ i h
        · rw [← hE.exCanonAnc, h, hexc] at hi; cases hi
      · rcases hnew _ o ho with ⟨h, _⟩ | ⟨_, _, h⟩
        · exact hcn _ h
        · rw [hE.idem] at h
          rw [← hE.exCanonAnc, h, hexc] at hi; cases hi
    · rw [hgl, List.mem_singleton] at hr
      subst hr
      refine ⟨hne, Or.inl ⟨o, ho, ?_⟩⟩
      rcases hnew _ o ho with ⟨h, _⟩ | ⟨h, _, _⟩
      · exact absurd h hn
      · rw [h]; simp
  refine ⟨.call (.copy tgt src []) (.new own) hr hc, ?_⟩
  unfold copyG at hc
  simp only at hc
  split at hc
  · cases hc
  rename_i d h1
  obtain ⟨hg, hnew, hkind, o, ho⟩ := key d h1
  obtain ⟨hk, ht⟩ : d.kind o = .source ∧ (d.reg.obj o).tgt = E.canon (E.home src) := by
    rcases hnew _ o ho with ⟨h, _⟩ | ⟨h, h', _⟩
    · exact absurd h hn
    · exact ⟨h, h'⟩
  unfold makefileG at hc
  split at hc
  · cases hc
  rename_i d1 t ds h2
  cases hc
  obtain ⟨rfl, rfl, k2⟩ := fileInit_keeps hE _ _ _ _ _ _ _ _ hs h2
  have hmiss : ¬ MissingDir E (E.canon (E.home tgt)) (E.canon (E.home src)) := by
    rintro ⟨i, h3, h4⟩
    rw [h4, hE.exCanonAnc, h3] at hexc; cases hexc
  have hlt := hg.wf _ _ ho
  obtain ⟨ho1, ho2⟩ := k2.obj o hlt
  generalize hob : makeObj (E.canon (E.home tgt)) (globs E [E.home src] ++ dirDep E true (E.canon (E.home tgt))) = ob
  have htgt : ob.tgt = E.canon (E.home tgt) := by rw [← hob]; rfl
  have hlt' : o ≠ d1.reg.next := by have h5 : d.reg.next ≤ d1.reg.next := k2.next; omega
  refine ⟨d1.reg.next, o, Or.inl ?_, by simp [World.addTo, MReg.add], ?_, ?_, ?_, ?_⟩
  · show (d1.reg.targets.set ob.tgt d1.reg.next).get _ = _
    rw [htgt]; simp
  · show Resolves E.canon (d1.add ob .file).reg _ o
    rw [add_resolves (by rw [htgt]; exact hE.idem _) (by rw [htgt]; exact hne)]
    exact k2.keep _ o ho hmiss
  · show (d1.add ob .file).kind o = _
    simp [MReg.add, hlt', ho2, hk]
  · show ((d1.add ob .file).reg.obj o).tgt = _
    simp [MReg.add, Core.add, hlt', ho1, ht]
  · show _ ∈ ((d1.add ob .file).reg.obj d1.reg.next).deps
    simp only [MReg.add, Core.add, if_true]
    rw [← hob]
    simp [makeObj, hgl]

/-- C116, later calls: in every project described by reasonable calls, for all files whose names do not stand for something that
is no file (that is for none of the four targets, nor for a set of files, routine or missing directory of the project) the call `copy(tgt, src)`
is a reasonable one, the file is registered as a file or source, and the target depends on it.  `tgt` is new (`FitsD`); the file
is not above a missing directory. -/
theorem C116_later (hE : E.Sane) {w w' : World} (h : DescribedD E lim w) {src tgt : String}
    (hsrc : ∀ o, Resolves E.canon w.dflt.reg (E.home src) o → FileLike (w.dflt.kind o))
    (hx : E.ex (E.home src) = true) (hsn : '*' ∉ (E.home src).toList) (hss : '*' ∉ (E.canon (E.home src)).toList)
    (hfit : FitsD E w.dflt (E.home tgt))
    (hne : E.canon (E.home src) ≠ E.canon (E.home tgt))
    (hdirs : ∀ b, w.dflt.kind b = .dir → ¬ IsAnc (E.canon (E.home src)) (w.dflt.reg.obj b).tgt)
    (hown : ∀ q, MissingDir E (E.canon (E.home tgt)) q → ¬ IsAnc (E.canon (E.home src)) q)
    (hc : copyG E lim w tgt src [] false = .ok w') :
    DescribedD E lim w' ∧
    ∃ root o, Resolves E.canon w'.dflt.reg (E.canon (E.home tgt)) root ∧ w'.dflt.kind root = .file ∧
      Resolves E.canon w'.dflt.reg (E.home src) o ∧ FileLike (w'.dflt.kind o) ∧
      (w'.dflt.reg.obj o).tgt = E.canon (E.home src) ∧ E.home src ∈ (w'.dflt.reg.obj root).deps := by
  have hgw := h.good hE
  have hnomiss : ∀ q, ¬ MissingDir E (E.canon (E.home src)) q := by
    rintro q ⟨i, h, _⟩
    rw [no_missing hE hx i] at h; cases h
  have hns : NoStar E (E.home src) := ⟨hss, fun q hq => absurd hq (hnomiss q)⟩
  have hexc : E.ex (E.canon (E.home src)) = true := hE.exCanon _ hx
  have hgl : globs E [E.home src] = [E.home src] := by simp [globs, hsn]
  have hok : (∃ o, Resolves E.canon w.dflt.reg (E.home src) o ∧ w.dflt.kind o ≠ .dir) ∨ FitsD E w.dflt (E.home src) := by
    by_cases hr : ∃ o, Resolves E.canon w.dflt.reg (E.home src) o
    · obtain ⟨o, ho⟩ := hr
      left
      refine ⟨o, ho, ?_⟩
      rcases hsrc o ho with e | e <;> rw [e] <;> simp
    · right
      refine ⟨hns, fun o ho => hr ⟨o, ?_⟩, fun q hq => absurd hq (hnomiss q), hdirs,
        fun a q _ hq => absurd hq (hnomiss q), fun i o hi _ => by rw [no_missing hE hx i] at hi; cases hi⟩
      have hg : w.dflt.reg.targets.get (E.canon (E.home src)) = some o := by
        rcases ho with ho | ⟨_, ho⟩
        · exact ho
        · rwa [hE.idem] at ho
      cases hn : w.dflt.reg.targets.get (E.home src) with
      | some o' => exact absurd ⟨o', Or.inl hn⟩ hr
      | none => exact Or.inr ⟨hn, hg⟩
  have key : ∀ d, sourceG E lim w.dflt (E.home src) [] = .ok d → GoodD E d ∧ FitsD E d (E.home tgt) ∧
      ∃ o, Resolves E.canon d.reg (E.home src) o ∧ FileLike (d.kind o) ∧ (d.reg.obj o).tgt = E.canon (E.home src) := by
    intro d hd
    obtain ⟨k, o, ho⟩ := sourceG_keeps hE hns (hnomiss _) hd
    have hg := (goodD_source hE hgw hok hd).1
    have hfresh : ∀ o, w.dflt.reg.next ≤ o → o < d.reg.next →
        d.kind o = .source ∧ (d.reg.obj o).tgt = E.canon (E.home src) := by
      intro o h1 h2
      rcases k.fresh o h1 h2 with ⟨_, q, hq, _⟩ | ⟨h3, h4⟩
      · exact absurd hq (hnomiss q)
      · exact ⟨h3, by rw [h4]; rfl⟩
    have hkind : ∀ b, d.kind b ≠ .other → (b < w.dflt.reg.next ∧ d.kind b = w.dflt.kind b ∧ d.reg.obj b = w.dflt.reg.obj b) ∨
        d.kind b = .source ∧ (d.reg.obj b).tgt = E.canon (E.home src) := by
      intro b hb
      by_cases h1 : b < w.dflt.reg.next
      · exact Or.inl ⟨h1, (k.obj b h1).2, (k.obj b h1).1⟩
      · exact Or.inr (hfresh b (by omega) (hg.old hb))
    have hdir : ∀ b, d.kind b = .dir → w.dflt.kind b = .dir ∧ d.reg.obj b = w.dflt.reg.obj b := by
      intro b hb
      rcases hkind b (by rw [hb]; simp) with ⟨_, h2, h3⟩ | ⟨h2, _⟩
      · exact ⟨by rw [← h2]; exact hb, h3⟩
      · rw [hb] at h2; cases h2
    refine ⟨hg, ⟨hfit.nostar, fun o ho => ?_, hfit.own, fun b hb => ?_, ⟨fun a q ha hq => ?_, fun i o hi ho => ?_⟩⟩, o, ho, ?_⟩
    · rcases k.new _ o ho with h' | ⟨h1, h2, h3⟩
      · exact hfit.new o h'
      · rw [(hfresh o h1 h2).2, hE.idem] at h3
        exact hne h3
    · rw [(hdir b hb).2]
      exact hfit.notdir b (hdir b hb).1
    · rcases hkind a (by rcases ha with e | e <;> rw [e] <;> simp) with ⟨_, h2, h3⟩ | ⟨_, h3⟩
      · rw [h3]; exact hfit.clear.nofile a q (by rw [← h2]; exact ha) hq
      · rw [h3]; exact hown q hq
    · have hold : ∀ n, E.canon n = E.canon (anc (E.canon (E.home tgt)) i) → Resolves E.canon d.reg n o →
          Resolves E.canon w.dflt.reg n o := by
        intro n hn hr
        rcases k.new _ o hr with h' | ⟨h1, h2, h3⟩
        · exact h'
        · exfalso
          rw [(hfresh o h1 h2).2, hn] at h3
          rw [← hE.exCanonAnc, ← h3, hexc] at hi; cases hi
      have hw : w.dflt.kind o = .dir ∧ o < w.dflt.reg.next := by
        rcases ho with ho | ho
        · have := hold _ rfl ho
          exact ⟨hfit.clear.taken i o hi (Or.inl this), hgw.wf _ _ this⟩
        · have := hold _ (hE.idem _) ho
          exact ⟨hfit.clear.taken i o hi (Or.inr this), hgw.wf _ _ this⟩
      rw [(k.obj o hw.2).2]; exact hw.1
    · rcases k.new _ o ho with h' | ⟨h1, h2, h3⟩
      · have hfl := hsrc o h'
        have hlt := hgw.wf _ _ h'
        rw [(k.obj o hlt).2, (k.obj o hlt).1]
        refine ⟨hfl, ?_⟩
        have hct : E.canon (w.dflt.reg.obj o).tgt = (w.dflt.reg.obj o).tgt := by
          refine hgw.canonT o hlt ?_ ?_ <;> rcases hfl with e | e <;> rw [e] <;> simp
        rcases h' with h' | ⟨_, h'⟩
        · rw [← hct, ← hgw.names _ _ h']
        · rw [← hct, ← hgw.names _ _ h', hE.idem]
      · obtain ⟨h4, h5⟩ := hfresh o h1 h2
        exact ⟨Or.inr h4, h5⟩
  have hr : ReasonableD E lim w.dflt (.copy tgt src []) := by
    refine ⟨hok, fun d hd => ?_⟩
    obtain ⟨hg, hf, o, ho, hk, _⟩ := key d hd
    refine ⟨hf, fun r hr => ?_⟩
    rw [hgl, List.mem_singleton] at hr
    subst hr
    refine ⟨hne, Or.inl ⟨o, ho, ?_⟩⟩
    rcases hk with e | e <;> rw [e] <;> simp
  refine ⟨.call (.copy tgt src []) h hr hc, ?_⟩
  unfold copyG at hc
  simp only at hc
  split at hc
  · cases hc
  rename_i d h1
  obtain ⟨hg, hf, o, ho, hk, ht⟩ := key d h1
  unfold makefileG at hc
  split at hc
  · cases hc
  rename_i d1 t ds h2
  cases hc
  obtain ⟨rfl, rfl, k2⟩ := fileInit_keeps hE _ _ _ _ _ _ _ _ hfit.nostar h2
  have hmiss : ¬ MissingDir E (E.canon (E.home tgt)) (E.canon (E.home src)) := by
    rintro ⟨i, h3, h4⟩
    rw [h4, hE.exCanonAnc, h3] at hexc; cases hexc
  have hlt := hg.wf _ _ ho
  obtain ⟨ho1, ho2⟩ := k2.obj o hlt
  generalize hob : makeObj (E.canon (E.home tgt)) (globs E [E.home src] ++ dirDep E true (E.canon (E.home tgt))) = ob
  have htgt : ob.tgt = E.canon (E.home tgt) := by rw [← hob]; rfl
  have hlt' : o ≠ d1.reg.next := by have h5 : d.reg.next ≤ d1.reg.next := k2.next; omega
  refine ⟨d1.reg.next, o, Or.inl ?_, by simp [World.addTo, MReg.add], ?_, ?_, ?_, ?_⟩
  · show (d1.reg.targets.set ob.tgt d1.reg.next).get _ = _
    rw [htgt]; simp
  · show Resolves E.canon (d1.add ob .file).reg _ o
    rw [add_resolves (by rw [htgt]; exact hE.idem _) (by rw [htgt]; exact hne)]
    exact k2.keep _ o ho hmiss
  · show FileLike ((d1.add ob .file).kind o)
    simp only [MReg.add, if_neg hlt', ho2]
    exact hk
  · show ((d1.add ob .file).reg.obj o).tgt = _
    simp [MReg.add, Core.add, hlt', ho1, ht]
  · show _ ∈ ((d1.add ob .file).reg.obj d1.reg.next).deps
    simp only [MReg.add, Core.add, if_true]
    rw [← hob]
    simp [makeObj, hgl]

/-! ### a project -/

open Fs in
/-- a project in the directory `/s` with the files `a` and `l` -/
def lEntries : List (List Path.Str × Node) :=
  [([nm "s"], .dir), ([nm "s", nm "a"], .file), ([nm "s", nm "l"], .file)]

theorem lEntries_closed : Fs.Closed lEntries := by decide +kernel

/-- its files -/
def lTree : Fs.Tree := Fs.Tree.ofList lEntries lEntries_closed

theorem lTree_noDangling : Fs.NoDangling lTree := Fs.noDangling_ofList _ 20 (by decide +kernel)

open Fs in
theorem lTree_env : ∃ E : Env, Realises lTree [nm "s"] E ∧ E.Sane ∧ AbsCanon E ∧ (∀ p, E.home p = p) ∧
    E.canon "a" = "/s/a" ∧ E.canon "l" = "/s/l" ∧ E.canon "b" = "/s/b" ∧ E.ex "a" = true ∧ E.ex "l" = true ∧
    ∀ q, ¬ MissingDir E "/s/b" q := by
  have hr := envOf_realises lTree [nm "s"]
  have hcwd : lTree.get [nm "s"] = some .dir := by decide +kernel
  have hE := hr.sane lTree_noDangling hcwd
  have hlink : ∀ q t, lTree.get q ≠ some (.link t) := by
    intro q t h
    rcases List.eq_nil_or_concat q with rfl | ⟨d, c, rfl⟩
    · rw [lTree.root] at h; cases h
    · rw [List.concat_eq_append] at h
      have hm : (d ++ [c], Node.link t) ∈ lEntries := look_mem h
      simp [lEntries] at hm
  have hcanon : ∀ x : String, Path.Plain (nm x) → Path.comps (nm x) = [nm x] → Path.isabs (nm x) = false →
      (envOf lTree [nm "s"]).canon x = String.ofList (Path.absPath [nm "s", nm x]) := by
    intro x h1 h2 h3
    refine hr.canon x _ ?_
    rw [show Path.comps x.toList = [nm x] from h2, start, show Path.isabs x.toList = false from h3]
    exact .step h1 (hlink _) .done
  have hex : ∀ x : String, x ≠ "" → walkF lTree 10 (start [nm "s"] x.toList) (Path.comps x.toList) = some [nm "s", nm x] →
      (envOf lTree [nm "s"]).ex x = true := fun x h1 h2 => (hr.ex x).2 ⟨h1, _, walkF_sound _ _ _ _ h2⟩
  have hs : (envOf lTree [nm "s"]).ex "/s" = true := by
    have h1 := hr.ex_abs (q := [nm "s"]) (Or.inr hcwd)
    have h2 : String.ofList (Path.absPath [nm "s"]) = "/s" := by decide +kernel
    rwa [h2] at h1
  have hpar : anc "/s/b" 0 = "/s" := by decide +kernel
  refine ⟨_, hr, hE, absCanon_of_realises hr lTree_noDangling, fun _ => rfl, ?_, ?_, ?_, hex "a" (by decide) (by decide +kernel),
    hex "l" (by decide) (by decide +kernel), ?_⟩
  · rw [hcanon "a" (by decide +kernel) (by decide +kernel) (by decide +kernel)]; decide +kernel
  · rw [hcanon "l" (by decide +kernel) (by decide +kernel) (by decide +kernel)]; decide +kernel
  · rw [hcanon "b" (by decide +kernel) (by decide +kernel) (by decide +kernel)]; decide +kernel
  · rintro q ⟨i, hi, _⟩
    have : ∀ j, (envOf lTree [nm "s"]).ex (anc "/s/b" j) = true := by
      intro j
      induction j with
      | zero => rw [hpar]; exact hs
      | succ j ih => exact hE.up _ j ih
    rw [this i] at hi; cases hi

/-- The assumptions of C116 can be met: in the directory `/s` with the files `a` and `l`, `copy("b", "a")` describes a project, and
`copy("b", "l")` one that cannot be built. -/
example : ∃ (E : Env) (w1 w2 : World), E.Sane ∧ AbsCanon E ∧ E.ex "a" = true ∧ E.ex "l" = true ∧
    copyG E 100 ⟨licantReg, noReg⟩ "b" "a" [] false = .ok w1 ∧ DescribedD E 100 w1 ∧
    (∃ root, Resolves E.canon w1.dflt.reg "/s/b" root ∧ "a" ∈ (w1.dflt.reg.obj root).deps) ∧
    copyG E 100 ⟨licantReg, noReg⟩ "b" "l" [] false = .ok w2 ∧
    (∃ root, Resolves E.canon w2.dflt.reg "/s/b" root ∧ "l" ∈ (w2.dflt.reg.obj root).deps) := by
  obtain ⟨E, _, hE, habs, hhome, ca, cl, cb, ea, el, hm⟩ := lTree_env
  have sa : Short E 100 (E.home "a") := by unfold Short; rw [hhome, ca]; decide +kernel
  have sl : Short E 100 (E.home "l") := by unfold Short; rw [hhome, cl]; decide +kernel
  have sb : Short E 100 (E.home "b") := by unfold Short; rw [hhome, cb]; decide +kernel
  have hs : NoStar E (E.home "b") := by
    rw [hhome]
    refine ⟨by rw [cb]; decide +kernel, fun q hq => ?_⟩
    rw [cb] at hq
    exact absurd hq (hm q)
  obtain ⟨w1, h1⟩ := copyG_returns hE ⟨licantReg, noReg⟩ [] false sb sa
  obtain ⟨w2, h2⟩ := copyG_returns hE ⟨licantReg, noReg⟩ [] false sb sl
  obtain ⟨p1, root, o, p2, -, -, -, -, p3⟩ := C116_partial hE habs (by rw [hhome]; decide +kernel) (by rw [hhome]; exact ea)
    (by rw [hhome]; decide +kernel) (by rw [hhome, ca]; decide +kernel) hs (by rw [hhome, hhome, ca, cb]; decide +kernel)
    (by rw [hhome, cb]; exact fun q hq => absurd hq (hm q)) h1
  obtain ⟨-, root', q1, -, q2, -⟩ := C116_violated hE habs (.new noReg) (n := "l") (by decide +kernel) el (hhome _) hs
    (by rw [hhome, cl, cb]; decide +kernel) h2
  rw [hhome, cb] at p2 q1
  rw [hhome] at p3
  exact ⟨E, w1, w2, hE, habs, ea, el, h1, p1, ⟨root, p2, p3⟩, h2, root', q1, q2⟩

/-- Non-vacuity of `C116_later`: after `makefile("/s/out/d/b", ["/s/a"])`, `copy("/s/out/c", "/s/a")`. -/
example : ∃ w', copyG srcEnv 50 ⟨dfltDemo, noReg⟩ "/s/out/c" "/s/a" [] false = .ok w' ∧ DescribedD srcEnv 50 w' ∧
    ∃ root o, Resolves srcEnv.canon w'.dflt.reg "/s/out/c" root ∧ w'.dflt.kind root = .file ∧
      Resolves srcEnv.canon w'.dflt.reg "/s/a" o ∧ FileLike (w'.dflt.kind o) ∧
      (w'.dflt.reg.obj o).tgt = "/s/a" ∧ "/s/a" ∈ (w'.dflt.reg.obj root).deps := by
  have hA : ∀ a ∈ ["/s/out/d", "/s/out", "/s", "/"], parent a ∈ ["/s/out/d", "/s/out", "/s", "/"] := by decide +kernel
  refine ⟨_, rfl, C116_later (E := srcEnv) (lim := 50) srcEnv_sane dfltDemo_described (tgt := "/s/out/c") (src := "/s/a") ?_ (by decide +kernel)
    (by decide +kernel) (by decide +kernel) dfltDemo_fits (by decide +kernel) ?_ ?_ rfl⟩
  · intro o h
    have h6 : Resolves srcEnv.canon dfltDemo.reg "/s/a" 6 := Or.inl (by decide +kernel)
    rw [Resolves.unique h h6]
    exact Or.inr rfl
  · rintro b hb ⟨i, hi⟩
    have hm : (dfltDemo.reg.obj b).tgt ∈ ["/s/out/d", "/s/out", "/s", "/"] := by
      rcases dfltDemo_made b (by rw [hb]; simp) with rfl | rfl | rfl | rfl <;>
        first | decide +kernel | (revert hb; decide +kernel)
    have h2 := anc_mem hA (hA _ hm) i
    rw [← hi] at h2
    revert h2; decide +kernel
  · rintro q ⟨j, _, rfl⟩ ⟨i, hi⟩
    have h1 := anc_mem hA (p := "/s/out/c") (by decide +kernel) j
    have h2 := anc_mem hA (hA _ h1) i
    change "/s/a" = anc (anc "/s/out/c" j) i at hi
    rw [← hi] at h2
    revert h2; decide +kernel

end Licant.Make
