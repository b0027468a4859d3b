/-
`MakeCore.touch`: "Create file if not exist."
C118: a file that exists is not changed (violated for targets with dependencies), a missing one gets the content.
-/
import Verif.Make.Wellformed
import Verif.Make.Props

set_option autoImplicit false

namespace Licant.Make
open Licant.Py Licant.Core Relation

variable {E : Env} {lim : Nat} {α : Type}

/-! ### specification -/

/-- further reasonable calls -/
inductive Later (E : Env) (lim : Nat) (w : World) : World → Prop
  | now : Later E lim w w
  | call {w1 w2 : World} (c : Call) : Later E lim w w1 → Reasonable E w1.own c → call E lim w1 c = .ok w2 →
      Later E lim w w2

/-- The project `P` is what reasonable calls on a new core describe, among them one of `touch(out, content, deps)`, which gave
the object `o`.
* make.py:312-328 `MakeCore.touch` registers its target as `ftarget` does (`ftargetC`), without `force`;
* 315-317 `create_file` writes `content`, whatever the files contain. -/
structure Touched (E : Env) (lim : Nat) (out : String) (content : α) (deps : List String) (o : Nat) (P : Proj α) : Prop where
  calls : ∃ w w1 w2 : World, Described E lim w ∧ Reasonable E w.own (.ftarget out deps) ∧
    ftargetC E lim w out deps = .ok (w1, o) ∧ Later E lim w1 w2 ∧ P.reg = w2.own.reg ∧ P.kind = w2.own.kind
  force : P.force o = false
  cmd : ∀ f, P.cmd o f = content
  parents : ∀ p q, q ∈ P.parents p → IsAnc q p

/-! ### proofs -/

theorem Later.described {w w' : World} (h : Described E lim w) (h' : Later E lim w w') : Described E lim w' := by
  induction h' with
  | now => exact h
  | call c _ hr hc ih => exact .call c ih hr hc

theorem call_obj (hE : E.Sane) {w w' : World} (hg : Good E w.own) {c : Call} (hr : Reasonable E w.own c)
    (h : call E lim w c = .ok w') : w.own.reg.next ≤ w'.own.reg.next ∧
      ∀ b, b < w.own.reg.next → w'.own.reg.obj b = w.own.reg.obj b ∧ w'.own.kind b = w.own.kind b := by
  have hg' := good_call hE hg hr h
  have next : ∀ o, w.own.reg.next ≤ o → (∃ n, Resolves E.canon w'.own.reg n o) → w.own.reg.next ≤ w'.own.reg.next := by
    rintro o h1 ⟨n, h2⟩
    have := hg'.wf _ _ h2
    omega
  cases c with
  | source src =>
    obtain ⟨hh, _, _⟩ := hr
    simp only [call, Except.map] at h
    split at h
    · cases h
    · rename_i r hs
      obtain ⟨w1, o⟩ := r
      cases h
      obtain ⟨hx, _⟩ := sourceC_ok hE hg.wf hh hs
      exact ⟨hx.next, hx.obj⟩
  | ftarget tgt deps =>
    obtain ⟨hf, _⟩ := hr
    simp only [call, Except.map] at h
    split at h
    · cases h
    · rename_i r hs
      obtain ⟨w1, o⟩ := r
      cases h
      have ha := C40_ftarget hE hg.wf hf.nostar (fun i hi => (hf.own _ ⟨i, hi, rfl⟩).1.symm) hs
      exact ⟨next o ha.new ⟨_, ha.target.2.2⟩, ha.obj⟩
  | copy src dst deps =>
    obtain ⟨hf, hs', _⟩ := hr
    simp only [call, Except.map] at h
    split at h
    · cases h
    · rename_i r hs
      obtain ⟨w1, o⟩ := r
      cases h
      have ha := C40_copy hE hg.wf hf.nostar hs' (fun i hi => (hf.own _ ⟨i, hi, rfl⟩).1.symm) hs
      exact ⟨next o ha.new ⟨_, ha.target.2.2⟩, ha.obj⟩

theorem Later.obj (hE : E.Sane) {w w' : World} (hd : Described E lim w) (h : Later E lim w w') :
    w.own.reg.next ≤ w'.own.reg.next ∧
      ∀ b, b < w.own.reg.next → w'.own.reg.obj b = w.own.reg.obj b ∧ w'.own.kind b = w.own.kind b := by
  induction h with
  | now => exact ⟨le_refl _, fun _ _ => ⟨rfl, rfl⟩⟩
  | call c hl hr hc ih =>
    obtain ⟨h1, h2⟩ := ih
    obtain ⟨h3, h4⟩ := call_obj hE ((hl.described hd).good hE) hr hc
    exact ⟨h1.trans h3, fun b hb => ⟨by rw [(h4 b (by omega)).1, (h2 b hb).1], by rw [(h4 b (by omega)).2, (h2 b hb).2]⟩⟩

/-- what is known of the target -/
theorem Touched.facts (hE : E.Sane) {out : String} {content : α} {deps : List String} {o : Nat} {P : Proj α}
    (h : Touched E lim out content deps o P) : Sound P E.canon ∧ Registered P.reg o ∧ P.kind o = .file ∧
      P.path o = E.canon (E.home out) ∧ (∀ d ∈ globs E deps, d ∈ (P.reg.obj o).deps) ∧
      (globs E deps = [] → ∀ b, ObjDep E.canon P.reg o b → P.kind b = .dir) := by
  obtain ⟨w, w1, w2, hd, hr, hc, hl, hreg, hkind⟩ := h.calls
  have hg := hd.good hE
  have hc1 : call E lim w (.ftarget out deps) = .ok w1 := by simp [call, Except.map, hc]
  have hd1 : Described E lim w1 := .call _ hd hr hc1
  have hd2 := hl.described hd1
  have hg1 := hd1.good hE
  have hg2 := hd2.good hE
  obtain ⟨hf, -⟩ := hr
  have ha := C40_ftarget hE hg.wf hf.nostar (fun i hi => (hf.own _ ⟨i, hi, rfl⟩).1.symm) hc
  obtain ⟨hn, hobj⟩ := hl.obj hE hd1
  have hlt := hg1.wf _ _ ha.target.2.2
  obtain ⟨ho1, ho2⟩ := hobj o hlt
  refine ⟨(C77_wellformed hE hd2 P hreg hkind h.parents).1, ?_, ?_, ?_, ?_, ?_⟩
  · rw [hreg]; exact (registered_lt hg2).2 (by omega)
  · rw [hkind, ho2]; exact ha.target.1
  · unfold Proj.path; rw [hreg, ho1]; exact ha.target.2.1
  · intro d hd
    rw [hreg, ho1]
    exact (ha.deps d).2 (Or.inl hd)
  · intro he b hb
    rw [hreg] at hb
    rw [hkind]
    obtain ⟨d, hd, hrb⟩ := hb
    rw [ho1] at hd
    rcases (ha.deps d).1 hd with h1 | ⟨h1, rfl⟩
    · rw [he] at h1; cases h1
    obtain ⟨b2, h2, h3⟩ := hg2.deps o (by omega) _ (by rw [ho1]; exact hd)
    have := hrb.unique h3
    subst this
    obtain ⟨b1, h4, h5⟩ := ha.missing 0 h1
    have hb1 := hg1.wf _ _ h4
    have e : b1 = b := by
      have t1 := hg1.resolves_tgt hE.idem h4
      have t2 := hg2.resolves_tgt hE.idem h3
      have s1 := hg2.self b1 (by omega)
      have s2 := hg2.self b (hg2.wf _ _ h3)
      rw [(hobj b1 hb1).1, ← t1] at s1
      rw [← t2] at s2
      change w2.own.reg.targets.get (E.canon (parent (E.home out))) = some b1 at s1
      rw [s1] at s2
      cases s2; rfl
    subst e
    rw [(hobj b1 hb1).2]
    by_cases hge : w.own.reg.next ≤ b1
    · exact (h5 hge).1
    · have hb0 : b1 < w.own.reg.next := by omega
      by_contra hk
      have t1 := hg1.resolves_tgt hE.idem h4
      rw [(ha.obj b1 hb0).1] at t1
      rw [(ha.obj b1 hb0).2] at hk
      exact (hf.nofile b1 ((registered_lt hg).2 hb0) hk _ ⟨0, h1, rfl⟩).1 t1.symm

/-- if all writes to a file target write the same, that is what the file contains -/
theorem content_of_writes {P : Proj α} {canon : String → String} {root : Nat} {fs : FS α} {cache : FileCache}
    (hS : Sound P canon) (hroot : Registered P.reg root) {B : Invocation P canon root fs cache} {clock : Nat}
    {tr : List (Ev α)} {s : St α} (h : B.Run clock tr s) {o : Nat} (ho : Registered P.reg o) (hk : P.kind o = .file) {c : α}
    (hw : ∀ i v, Ev.write i v ∈ tr → B.objs[i]? = some o → v = c) (hone : Written B tr o) :
    contents s.fs (P.path o) = some c := by
  unfold Invocation.Run at h
  induction h with
  | nil => obtain ⟨_, _, h, _⟩ := hone; cases h
  | @snoc tr s e s' hx hst ih =>
    have hw' : ∀ i v, Ev.write i v ∈ tr → B.objs[i]? = some o → v = c := fun i v hm => hw i v (List.mem_append_left _ hm)
    have old : Written B tr o → s'.fs (P.path o) = s.fs (P.path o) → contents s'.fs (P.path o) = some c := by
      intro h1 h2
      have := ih hw' h1
      unfold contents at this ⊢
      rw [h2]; exact this
    have hreg : ∀ i x, B.objs[i]? = some x → Registered P.reg x := fun i x hx => B.reg hS hroot hx
    cases fsStep hst with
    | same hfs hne =>
      refine old ?_ (by rw [hfs])
      obtain ⟨i, v, h1, h2⟩ := hone
      rcases List.mem_append.1 h1 with h1 | h1
      · exact ⟨i, v, h1, h2⟩
      · rw [List.mem_singleton] at h1
        exact absurd h1.symm (hne i v)
    | @write i1 v1 o1 ho1 _ _ _ hfs =>
      by_cases e : o1 = o
      · subst e
        have := hw i1 v1 (by simp) ho1
        subst this
        unfold contents
        rw [hfs]
        simp [setFile]
      · refine old ?_ ?_
        · obtain ⟨i, v, h1, h2⟩ := hone
          rcases List.mem_append.1 h1 with h1 | h1
          · exact ⟨i, v, h1, h2⟩
          · rw [List.mem_singleton] at h1
            cases h1
            rw [ho1] at h2; cases h2; exact absurd rfl e
        · rw [hfs]
          have : P.path o ≠ P.path o1 := fun e' => e (path_inj hS ho (hreg _ _ ho1) e').symm
          simp [setFile, this]
    | mkdir _ _ _ _ hfs =>
      have hwr : Written B tr o := by
        obtain ⟨i, v, h1, h2⟩ := hone
        rcases List.mem_append.1 h1 with h1 | h1
        · exact ⟨i, v, h1, h2⟩
        · rw [List.mem_singleton] at h1; cases h1
      refine old hwr ?_
      have hc := ih hw' hwr
      unfold contents at hc
      cases he : s.fs (P.path o) with
      | none => rw [he] at hc; cases hc
      | some e => rw [hfs, makedirs_some he]

/-- a build that calls the command of `o`, and succeeds -/
theorem overwritten {P : Proj α} {canon : String → String} {root : Nat} {fs : FS α} {cache : FileCache}
    (hS : Sound P canon) (hroot : Registered P.reg root) (hk : P.kind root ≠ .other) {B : Invocation P canon root fs cache}
    {clock : Nat} {tr : List (Ev α)} {s : St α} (h : B.Run clock tr s) {o : Nat} (ho : Closure canon P.reg root o)
    (hko : P.kind o = .file) {c : α} (hcmd : ∀ f, P.cmd o f = c) (hfa : Faithful B clock tr) (hp : Productive B tr)
    (hs : s.Succeeded) (hn : NeedsWork P canon (view fs cache) o) : contents s.fs (P.path o) = some c := by
  obtain ⟨i, w, w', hi, hst, hf⟩ := Succeeded.finished hS hroot h hs ho
  have hw := (need_closure hS hroot hk B ho).1.2 hn
  obtain ⟨v, hv⟩ := hp w i o (mem_sched.1 hf) hi (by
    unfold Invocation.commands Invocation.updates
    rw [List.mem_filter, mem_updateCalls]
    exact ⟨⟨hw, w', i, hst, hi⟩, by simp [hko]⟩)
  refine content_of_writes hS hroot h (closure_registered hroot ho) hko ?_ ⟨i, v, hv, hi⟩
  intro j v hm hj
  obtain ⟨pre, post, rfl⟩ := List.append_of_mem hm
  obtain ⟨s1, h1⟩ := (Run.prefix h) pre (.write j v :: post) rfl
  rw [hfa pre post j v o s1 rfl hj h1, hcmd]

/-- **C118 is false** of the code: a target of `touch` with dependencies is written again when one of them is newer, and what
the file contained is lost. -/
theorem C118_violated (hE : E.Sane) {out : String} {content : α} {deps : List String} {o : Nat} {P : Proj α}
    (ht : Touched E lim out content deps o P) {d : String} (hd : d ∈ globs E deps) {o' : Nat}
    (hr : Resolves E.canon P.reg d o') (hko : P.kind o' = .file ∨ P.kind o' = .source)
    {fs : FS α} {old : Entry α} (hold : fs (E.canon (E.home out)) = some old)
    {new : Entry α} (hnew : fs (P.path o') = some new) (hlt : old.mtime < new.mtime)
    {root : Nat} (hroot : Registered P.reg root) (hk : P.kind root ≠ .other) (hcl : Closure E.canon P.reg root o)
    {cache : FileCache} (hacc : Accurate P fs cache) {B : Invocation P E.canon root fs cache}
    {clock : Nat} {tr : List (Ev α)} {s : St α} (h : B.Run clock tr s) (hfa : Faithful B clock tr) (hp : Productive B tr)
    (hs : s.Succeeded) : contents s.fs (E.canon (E.home out)) = some content := by
  obtain ⟨hS, hreg, hkf, hpath, hdeps, -⟩ := ht.facts hE
  rw [← hpath]
  rw [← hpath] at hold
  refine overwritten hS hroot hk h hcl hkf ht.cmd hfa hp hs ?_
  rw [needsWork_congr hreg hacc]
  refine ⟨o, .refl, ?_⟩
  unfold OutOfDate
  rw [hkf]
  refine Or.inr (Or.inr ⟨o', .direct ⟨d, hdeps d hd, hr⟩ hko, ?_⟩)
  simp only [fileinfo, hold, hnew]
  exact hlt

/-- C118, what holds for targets of `touch` without dependencies:
* if the file exists (and so do its directories), no build of any target changes it at any time, whether the build succeeds,
  fails or stops anywhere;
* if it does not exist, it has the content after every successful build it takes part in.
Missing: targets with dependencies (`C118_violated`). -/
theorem C118_partial (hE : E.Sane) {out : String} {content : α} {o : Nat} {P : Proj α}
    (ht : Touched E lim out content [] o P) {fs : FS α} {root : Nat} (hroot : Registered P.reg root) (hk : P.kind root ≠ .other)
    {cache : FileCache} (hacc : Accurate P fs cache) (B : Invocation P E.canon root fs cache) {clock : Nat} {tr : List (Ev α)}
    {s : St α} (h : B.Run clock tr s) :
    (fs (E.canon (E.home out)) ≠ none → (∀ b, Closure E.canon P.reg o b → P.kind b = .dir → fs (P.path b) ≠ none) →
      s.fs (E.canon (E.home out)) = fs (E.canon (E.home out))) ∧
    (fs (E.canon (E.home out)) = none → Closure E.canon P.reg root o → Faithful B clock tr → Productive B tr → s.Succeeded →
      contents s.fs (E.canon (E.home out)) = some content) := by
  obtain ⟨hS, hreg, hkf, hpath, -, hdirs⟩ := ht.facts hE
  rw [← hpath]
  have hdep := hdirs rfl
  have hdir : ∀ b, Closure E.canon P.reg o b → b = o ∨ P.kind b = .dir := by
    intro b hb
    induction hb with
    | refl => exact Or.inl rfl
    | tail _ h ih =>
      rcases ih with rfl | ih
      · exact Or.inr (hdep _ h)
      · exact Or.inr (hS.srcDeps _ _ (Or.inr ih) h)
  constructor
  · intro hx hd
    refine unwritten hS hroot h hreg (Or.inl hkf) ?_
    rintro ⟨i, v, h1, h2⟩
    obtain ⟨_, x, h3, _, h5⟩ := write_info hS hroot h i v h1
    rw [h2] at h3; cases h3
    have hcl := B.closure hS hroot h2
    have hn := (need_closure hS hroot hk B hcl).1.1 h5
    rw [needsWork_congr hreg hacc] at hn
    obtain ⟨b, hb, ho⟩ := hn
    unfold OutOfDate at ho
    rcases hdir b hb with rfl | hkb
    · rw [hkf] at ho
      rcases ho with ho | ho | ⟨o', ho, _⟩
      · rw [ht.force] at ho; cases ho
      · rw [← Bool.not_eq_true, fileinfo_exist] at ho
        exact ho (Option.isSome_iff_ne_none.2 hx)
      · cases ho with
        | direct hd hk' => rw [hdep _ hd] at hk'; rcases hk' with hk' | hk' <;> cases hk'
        | through hd hk' _ => rw [hdep _ hd] at hk'; cases hk'
    · rw [hkb] at ho
      simp only at ho
      rw [← Bool.not_eq_true, fileinfo_exist] at ho
      exact ho (Option.isSome_iff_ne_none.2 (hd b hb hkb))
  · intro hx hcl hfa hp hs
    refine overwritten hS hroot hk h hcl hkf ht.cmd hfa hp hs ?_
    rw [needsWork_congr hreg hacc]
    refine ⟨o, .refl, ?_⟩
    unfold OutOfDate
    rw [hkf]
    refine Or.inr (Or.inl ?_)
    rw [← Bool.not_eq_true, fileinfo_exist, hx]
    simp

/-! ### an example -/

/-- `core.source("/s/a")`, `core.touch("/s/t", "7", deps=["/s/a"])`, `core.touch("/s/u", "7")`, with the directory `/s` -/
def touchReg : MReg :=
  ((noReg.add (makeObj "/s/a" []) .source).add (makeObj "/s/t" ["/s/a"]) .file).add (makeObj "/s/u" []) .file

def touchProj : Proj Nat where
  reg := touchReg.reg
  kind := touchReg.kind
  force := fun _ => false
  upd := fun _ => .ok false
  cmd := fun _ _ => 7
  parents := fun _ => []

theorem add_nodir {c : MReg} {ob : Obj} {k : Kind} (h : ∀ b, c.kind b ≠ .dir) (hk : k ≠ .dir) : ∀ b, (c.add ob k).kind b ≠ .dir := by
  intro b
  show (if b = c.reg.next then k else c.kind b) ≠ _
  split
  · exact hk
  · exact h b

theorem touch_fits {c : MReg} {p : String} (hp : p = "/s/t" ∨ p = "/s/u") (hnew : c.reg.targets.get p = none)
    (hdir : ∀ b, c.kind b ≠ .dir) : Fits srcEnv c p := by
  have hA : ∀ i, anc p i ∈ ["/s", "/"] := by
    intro i
    induction i with
    | zero => rcases hp with rfl | rfl <;> decide +kernel
    | succ i ih =>
      rw [← parent_anc]
      generalize anc p i = q at ih
      simp only [List.mem_cons, List.not_mem_nil, or_false] at ih
      rcases ih with rfl | rfl <;> decide +kernel
  have hmiss : ∀ q, ¬ MissingDir srcEnv p q := by
    rintro q ⟨i, hi, _⟩
    have := hA i
    generalize anc p i = r at *
    simp only [List.mem_cons, List.not_mem_nil, or_false] at this
    rcases this with rfl | rfl <;> revert hi <;> decide +kernel
  refine ⟨by rcases hp with rfl | rfl <;> decide +kernel, ?_, fun q hq => absurd hq (hmiss q), fun b _ hb => absurd hb (hdir b),
    fun a _ _ q hq => absurd hq (hmiss q)⟩
  rintro o (h | ⟨_, h⟩) <;> (change c.reg.targets.get p = _ at h; rw [hnew] at h; cases h)

theorem touched_both : Touched srcEnv 50 "/s/t" 7 ["/s/a"] 1 touchProj ∧ Touched srcEnv 50 "/s/u" 7 [] 2 touchProj := by
  have h0 : call srcEnv 50 ⟨noReg, noReg⟩ (.source "/s/a") = .ok ⟨noReg, noReg.add (makeObj "/s/a" []) .source⟩ := rfl
  have d0 : Described srcEnv 50 ⟨noReg, noReg.add (makeObj "/s/a" []) .source⟩ := by
    refine .call (.source "/s/a") (.new noReg) ⟨rfl, by decide, Or.inr ?_⟩ h0
    rintro b ⟨n, hn⟩
    cases hn
  have k0 : ∀ b, (noReg.add (makeObj "/s/a" []) .source).kind b ≠ .dir := by
    exact add_nodir (fun b h => by cases h) (by simp)
  have hr1 : Reasonable srcEnv (noReg.add (makeObj "/s/a" []) .source) (.ftarget "/s/t" ["/s/a"]) := by
    refine ⟨touch_fits (Or.inl rfl) (by decide +kernel) k0, fun d hd => ?_⟩
    have hgl : globs srcEnv ["/s/a"] = ["/s/a"] := by decide +kernel
    rw [hgl, List.mem_singleton] at hd
    subst hd
    exact ⟨0, Or.inl (by decide +kernel)⟩
  obtain ⟨w1, h1, e1⟩ : ∃ w1, ftargetC srcEnv 50 ⟨noReg, noReg.add (makeObj "/s/a" []) .source⟩ "/s/t" ["/s/a"] = .ok (w1, 1) ∧
      w1.own = (noReg.add (makeObj "/s/a" []) .source).add (makeObj "/s/t" ["/s/a"]) .file := ⟨_, rfl, rfl⟩
  have c1 : call srcEnv 50 ⟨noReg, noReg.add (makeObj "/s/a" []) .source⟩ (.ftarget "/s/t" ["/s/a"]) = .ok w1 := by
    simp [call, Except.map, h1]
  have d1 : Described srcEnv 50 w1 := .call _ d0 hr1 c1
  have k1 : ∀ b, w1.own.kind b ≠ .dir := by
    rw [e1]
    exact add_nodir k0 (by simp)
  have hr2 : Reasonable srcEnv w1.own (.ftarget "/s/u" []) := by
    refine ⟨touch_fits (Or.inr rfl) (by rw [e1]; decide +kernel) k1, fun d hd => by cases hd⟩
  obtain ⟨d1', o1⟩ := w1
  simp only at e1
  subst e1
  obtain ⟨w2, h2, e2⟩ : ∃ w2, ftargetC srcEnv 50 ⟨d1', (noReg.add (makeObj "/s/a" []) .source).add (makeObj "/s/t" ["/s/a"]) .file⟩
      "/s/u" [] = .ok (w2, 2) ∧ w2.own = touchReg := ⟨_, rfl, rfl⟩
  have c2 : call srcEnv 50 ⟨d1', (noReg.add (makeObj "/s/a" []) .source).add (makeObj "/s/t" ["/s/a"]) .file⟩
      (.ftarget "/s/u" []) = .ok w2 := by simp [call, Except.map, h2]
  exact ⟨⟨⟨_, _, _, d0, hr1, h1, .call _ .now hr2 c2, by rw [e2]; rfl, by rw [e2]; rfl⟩, rfl, fun _ => rfl,
      fun _ _ h => by cases h⟩,
    ⟨⟨_, _, _, d1, hr2, h2, .now, by rw [e2]; rfl, by rw [e2]; rfl⟩, rfl, fun _ => rfl, fun _ _ h => by cases h⟩⟩

/-- `/s/t` contains 1 and is older than `/s/a`; `/s/u` is missing -/
def touchFs : FS Nat := fun p => if p = "/s/a" then some ⟨5, some 0⟩ else if p = "/s/t" then some ⟨3, some 1⟩ else none

theorem touch_all : ∀ o, o ∈ [0, 1, 2] ↔ Registered touchProj.reg o ∧ (touchProj.reg.obj o).upd = true := by
  have hreg : ∀ o, Registered touchProj.reg o ↔ o < 3 := by
    intro o
    constructor
    · rintro ⟨n, hn⟩
      change (((Dict.set [] "/s/a" 0).set "/s/t" 1).set "/s/u" 2).get n = some o at hn
      simp only [Dict.get_set] at hn
      split at hn
      · cases hn; omega
      · split at hn
        · cases hn; omega
        · split at hn
          · cases hn; omega
          · cases hn
    · intro h
      have : o = 0 ∨ o = 1 ∨ o = 2 := by omega
      rcases this with rfl | rfl | rfl
      · exact ⟨"/s/a", by decide +kernel⟩
      · exact ⟨"/s/t", by decide +kernel⟩
      · exact ⟨"/s/u", by decide +kernel⟩
  intro o
  rw [hreg]
  constructor
  · intro h
    have h3 : o = 0 ∨ o = 1 ∨ o = 2 := by simpa using h
    rcases h3 with rfl | rfl | rfl <;> exact ⟨by omega, rfl⟩
  · rintro ⟨h, _⟩
    have h3 : o = 0 ∨ o = 1 ∨ o = 2 := by omega
    simpa using h3

def touchB : Invocation touchProj srcEnv.canon 1 touchFs [] := .of (lim := 10) (lim' := 10) (n := 1) _ touch_all rfl rfl rfl
def touchB2 : Invocation touchProj srcEnv.canon 2 touchFs [] := .of (lim := 10) (lim' := 10) (n := 1) _ touch_all rfl rfl rfl

def touchTr : List (Ev Nat) :=
  [.sched (.start 0 0), .sched (.finish 0 0 .ok), .sched (.start 0 1), .write 1 7, .sched (.finish 0 1 .ok)]
def touchTr2 : List (Ev Nat) := [.sched (.start 0 0), .write 0 7, .sched (.finish 0 0 .ok)]

/-- the builds of `/s/t` and `/s/u`: what `/s/t` contained is lost -/
example : (∃ s, touchB.Run 9 touchTr s ∧ s.Succeeded ∧ Faithful touchB 9 touchTr ∧ Productive touchB touchTr ∧
      contents touchFs "/s/t" = some 1 ∧ contents s.fs "/s/t" = some 7) ∧
    ∃ s, touchB2.Run 9 touchTr2 s ∧ s.Succeeded ∧ Faithful touchB2 9 touchTr2 ∧ Productive touchB2 touchTr2 ∧
      contents s.fs "/s/u" = some 7 :=
  ⟨⟨_, run_iff.2 rfl, ⟨rfl, rfl⟩, faithful_of (by decide +kernel), productive_of (by decide +kernel),
    by decide +kernel, by decide +kernel⟩,
  ⟨_, run_iff.2 rfl, ⟨rfl, rfl⟩, faithful_of (by decide +kernel), productive_of (by decide +kernel), by decide +kernel⟩⟩

end Licant.Make
