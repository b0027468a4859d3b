/-
The targets of the sources of a C++ module: C57.
-/
import Verif.Cxx.Link
import Verif.Make.Keeps
import Verif.Make.Props

set_option autoImplicit false

namespace Licant.Cxx
open Licant.Py Licant.Core Licant.Make Relation
open Licant.Modules (Val Opts Toolchain Lib)

/-! ### Specification -/

/-- the headers in the dependency file `d`, none if there is no such file -/
def Site.hdrs (S : Site) (d : String) : List String := (S.headers d).getD []

/-- A compilation: source, object file and dependency file. -/
abbrev CUnit := String × String × String

/-- the files that the compiler reads for a unit, as far as it is known -/
def CUnit.ins (S : Site) (u : CUnit) : List String := u.1 :: S.hdrs u.2.2

/-- the files made for a unit -/
def CUnit.outs (u : CUnit) : List String := [u.2.2, u.2.1]

/-- all files of a unit -/
def CUnit.files (S : Site) (u : CUnit) : List String := CUnit.ins S u ++ CUnit.outs u

/-- The units `us`, with the additional dependencies `adddeps`, can be added to the registry `c`:
* there are no patterns in file names;
* no file is used as the directory of another one;
* the outputs are different files, not registered yet, and not read by other units;
* what is registered for a source or header is a file. -/
structure Units (S : Site) (c : MReg) (us : List CUnit) (adddeps : List String) : Prop where
  nostar : ∀ u ∈ us, ∀ f ∈ CUnit.files S u, '*' ∉ f.toList ∧ NoStar S.env f
  nodirs : ∀ u ∈ us, ∀ v ∈ us, ∀ f ∈ CUnit.files S u, ∀ g ∈ CUnit.files S v,
    ¬ MissingDir S.env (S.env.canon g) (S.env.canon f)
  outputs : ((us.flatMap CUnit.outs).map S.env.canon).Nodup
  free : ∀ u ∈ us, ∀ p ∈ CUnit.outs u, Free S.env c p
  apart : ∀ u ∈ us, ∀ v ∈ us, ∀ p ∈ CUnit.outs u, ∀ f ∈ CUnit.ins S v, S.env.canon f ≠ S.env.canon p
  adds : ∀ u ∈ us, ∀ p ∈ CUnit.outs u, ∀ r ∈ globs S.env adddeps, S.env.ex r = true → S.env.canon r ≠ S.env.canon p
  known : ∀ u ∈ us, ∀ f ∈ CUnit.ins S u, ∀ x, Resolves S.env.canon c.reg f x →
    (c.kind x = .file ∨ c.kind x = .source) ∧ (c.reg.obj x).tgt = S.env.canon f

/-! ### Steps -/

variable {S : Site}

/-- registration keeps what is registered, also the attributes of C++ targets -/
def LKeeps (S : Site) (L L' : LReg) (D : String → Prop) (T : Obj → Kind → Prop) : Prop :=
  Keeps S.env.canon L.m L'.m D T ∧ ∀ i < L.m.reg.next, L'.force i = L.force i ∧ L'.cmd i = L.cmd i

theorem LKeeps.refl (L : LReg) (D : String → Prop) (T : Obj → Kind → Prop) : LKeeps S L L D T :=
  ⟨.refl _ _ _, fun _ _ => ⟨rfl, rfl⟩⟩

theorem LKeeps.mono {L L' : LReg} {D D' : String → Prop} {T T' : Obj → Kind → Prop}
    (h : LKeeps S L L' D T) (hD : ∀ q, D q → D' q) (hT : ∀ ob k, T ob k → T' ob k) : LKeeps S L L' D' T' :=
  ⟨h.1.mono hD hT, h.2⟩

theorem LKeeps.trans {a b c : LReg} {D : String → Prop} {T : Obj → Kind → Prop}
    (h : LKeeps S a b D T) (h' : LKeeps S b c D T) : LKeeps S a c D T := by
  refine ⟨h.1.trans h'.1, fun i hi => ?_⟩
  obtain ⟨h1, h2⟩ := h.2 i hi
  obtain ⟨h3, h4⟩ := h'.2 i (lt_of_lt_of_le hi h.1.next)
  exact ⟨h3.trans h1, h4.trans h2⟩

theorem liftE_ok {α : Type} {e : Except Core.Err α} {a : α} (h : liftE e = .ok a) : e = .ok a := by
  cases e with
  | error => cases h
  | ok b => cases h; rfl

theorem addFile_keeps (hE : S.env.Sane) {L L' : LReg} {p : String} {deps : List String} {f : Bool}
    {cmd : String → Except Modules.Err String} (hs : NoStar S.env p)
    (hself : ¬ MissingDir S.env (S.env.canon p) (S.env.canon p)) (hf : Free S.env L.m p)
    (hdeps : ∀ r ∈ globs S.env deps, S.env.ex r = true → S.env.canon r ≠ S.env.canon p)
    (h : addFile S L p deps f cmd = .ok L') :
    LKeeps S L L' (MissingDir S.env (S.env.canon p)) (fun ob k => DirFor S.env (S.env.canon p) ob k ∨
      SrcFor S.env deps ob k ∨ k = .file ∧ ob = madeFrom S.env p deps) ∧
    ∃ x c, cmd (S.env.canon p) = .ok c ∧ Names S.env L'.m p x ∧ L.m.reg.next ≤ x ∧ x < L'.m.reg.next ∧
      L'.m.reg.obj x = madeFrom S.env p deps ∧ L'.m.kind x = .file ∧ L'.force x = f ∧ L'.cmd x = some c := by
  unfold addFile at h
  simp only [bind, Except.bind] at h
  split at h
  · cases h
  · rename_i c hc
    split at h
    · cases h
    · rename_i r hr
      obtain ⟨d, t, ds⟩ := r
      cases h
      obtain ⟨h1, h2, h3, h4, h5⟩ := fileTarget_keeps hE hs hself hf hdeps (liftE_ok hr)
      refine ⟨⟨h1, fun i hi => ?_⟩, d.reg.next, c, hc, h2, h3, ?_, h4, h5, by simp, by simp⟩
      · have : i ≠ d.reg.next := by omega
        simp [this]
      · simp [MReg.add, Core.add]

theorem ensureSource_eq {L : LReg} {p : String} : ensureSource S L p = addSource S L p := by
  unfold ensureSource addSource
  simp only
  split
  · rename_i hh
    simp [sourceG, hh, liftE, bind, Except.bind, pure, Except.pure]
  · rename_i hh
    obtain ⟨he, _⟩ := has_false (by simpa using hh)
    rw [he]

theorem addSource_keeps (hE : S.env.Sane) {L L' : LReg} {p : String} (hs : NoStar S.env p)
    (hself : ¬ MissingDir S.env (S.env.canon p) (S.env.canon p)) (h : addSource S L p = .ok L') :
    LKeeps S L L' (MissingDir S.env (S.env.canon p))
      (fun ob k => DirFor S.env (S.env.canon p) ob k ∨ k = .source ∧ ob = plain S.env (S.env.canon p)) ∧
    ∃ o, Resolves S.env.canon L'.m.reg p o := by
  unfold addSource at h
  simp only [bind, Except.bind] at h
  split at h
  · cases h
  · rename_i m hm
    cases h
    obtain ⟨h1, h2⟩ := sourceG_keeps hE hs hself (liftE_ok hm)
    exact ⟨⟨h1, fun _ _ => ⟨rfl, rfl⟩⟩, h2⟩

/-- several sources -/
theorem addSources_keeps (hE : S.env.Sane) : ∀ (l : List String) {L L' : LReg},
    (∀ p ∈ l, NoStar S.env p) → (∀ p ∈ l, ∀ q ∈ l, ¬ MissingDir S.env (S.env.canon q) (S.env.canon p)) →
    l.foldlM (addSource S) L = .ok L' →
    LKeeps S L L' (fun q => ∃ p ∈ l, MissingDir S.env (S.env.canon p) q)
      (fun ob k => ∃ p ∈ l, DirFor S.env (S.env.canon p) ob k ∨ k = .source ∧ ob = plain S.env (S.env.canon p)) ∧
    ∀ p ∈ l, ∃ o, Resolves S.env.canon L'.m.reg p o := by
  intro l
  induction l with
  | nil =>
    intro L L' _ _ h
    cases h
    exact ⟨.refl _ _ _, by simp⟩
  | cons p l ih =>
    intro L L' hs hd h
    simp only [List.foldlM_cons, bind, Except.bind] at h
    split at h
    · cases h
    · rename_i L1 h1
      obtain ⟨hk1, o, ho⟩ := addSource_keeps hE (hs p (by simp)) (hd p (by simp) p (by simp)) h1
      obtain ⟨hk2, hr⟩ := ih (fun q hq => hs q (by simp [hq])) (fun a ha b hb => hd a (by simp [ha]) b (by simp [hb])) h
      refine ⟨(hk1.mono (fun q hq => ⟨p, by simp, hq⟩) fun ob k hk => ⟨p, by simp, hk⟩).trans
        (hk2.mono ?_ ?_), ?_⟩
      · rintro q ⟨x, hx, hq⟩; exact ⟨x, by simp [hx], hq⟩
      · rintro ob k ⟨x, hx, hq⟩; exact ⟨x, by simp [hx], hq⟩
      · intro x hx
        rcases List.mem_cons.1 hx with rfl | hx
        · refine ⟨o, hk2.1.keep _ _ ho ?_⟩
          rintro ⟨q, hq, hm⟩
          exact hd x (by simp) q (by simp [hq]) hm
        · exact hr x hx

/-- The registry holds the two targets of the unit `u`: `x` makes the object file, `y` the dependency file. -/
structure Compiled (S : Site) (L : LReg) (opts : CxxOpts) (adddeps : List String) (u : CUnit) (x y : Nat) : Prop where
  objNames : Names S.env L.m u.2.1 x
  depNames : Names S.env L.m u.2.2 y
  lt : x < L.m.reg.next ∧ y < L.m.reg.next
  objIs : L.m.reg.obj x = madeFrom S.env u.2.1 ([u.1, u.2.2] ++ adddeps ++ S.hdrs u.2.2)
  depIs : L.m.reg.obj y = madeFrom S.env u.2.2 ([u.1] ++ adddeps ++ S.hdrs u.2.2)
  kinds : L.m.kind x = .file ∧ L.m.kind y = .file
  force : L.force x = false ∧ L.force y = (S.headers u.2.2).isNone
  objCmd : ∃ c, objectCommand u.1 (S.env.canon u.2.1) opts none = .ok c ∧ L.cmd x = some c
  depCmd : ∃ c, dependCommand u.1 (S.env.canon u.2.2) opts none = .ok c ∧ L.cmd y = some c
  ins : ∀ f ∈ CUnit.ins S u, ∃ z, z < L.m.reg.next ∧ Resolves S.env.canon L.m.reg f z ∧
    (L.m.kind z = .file ∨ L.m.kind z = .source) ∧ (L.m.reg.obj z).tgt = S.env.canon f

/-- names that may change their meaning while the unit `u` is added -/
def DirsOf (S : Site) (u : CUnit) (q : String) : Prop := ∃ f ∈ CUnit.files S u, MissingDir S.env (S.env.canon f) q

/-- the targets that are added for the unit `u` -/
def TargetsOf (S : Site) (adddeps : List String) (u : CUnit) (ob : Obj) (k : Kind) : Prop :=
  (∃ f ∈ CUnit.files S u, DirFor S.env (S.env.canon f) ob k) ∨
  (k = .source ∧ ∃ f, (f ∈ CUnit.ins S u ∨ f = u.2.2 ∨ f ∈ globs S.env adddeps ∧ S.env.ex f = true) ∧
    ob = plain S.env (S.env.canon f)) ∨
  (k = .file ∧ (ob = madeFrom S.env u.2.2 ([u.1] ++ adddeps ++ S.hdrs u.2.2) ∨
    ob = madeFrom S.env u.2.1 ([u.1, u.2.2] ++ adddeps ++ S.hdrs u.2.2)))

theorem mem_globs_nostar {E : Env} {l : List String} {r : String} (h : ∀ f ∈ l, '*' ∉ f.toList) (hr : r ∈ globs E l) :
    r ∈ l := by
  rwa [globs_id h] at hr

theorem Compiled.keep {L L' : LReg} {D : String → Prop} {T : Obj → Kind → Prop} {opts : CxxOpts}
    {adddeps : List String} {u : CUnit} {x y : Nat} (h : Compiled S L opts adddeps u x y) (hk : LKeeps S L L' D T)
    (hD : ∀ f ∈ CUnit.files S u, ¬ D (S.env.canon f)) : Compiled S L' opts adddeps u x y := by
  have ho := hk.1.obj
  have hx := ho x h.lt.1
  have hy := ho y h.lt.2
  have hfx := hk.2 x h.lt.1
  have hfy := hk.2 y h.lt.2
  refine ⟨hk.1.names h.objNames (hD _ (by simp [CUnit.files, CUnit.outs])),
    hk.1.names h.depNames (hD _ (by simp [CUnit.files, CUnit.outs])),
    ⟨lt_of_lt_of_le h.lt.1 hk.1.next, lt_of_lt_of_le h.lt.2 hk.1.next⟩, by rw [hx.1]; exact h.objIs,
    by rw [hy.1]; exact h.depIs, by rw [hx.2, hy.2]; exact h.kinds, by rw [hfx.1, hfy.1]; exact h.force,
    by rw [hfx.2]; exact h.objCmd, by rw [hfy.2]; exact h.depCmd, ?_⟩
  intro f hf
  obtain ⟨z, h1, h2, h3, h4⟩ := h.ins f hf
  have hz := ho z h1
  exact ⟨z, lt_of_lt_of_le h1 hk.1.next, hk.1.keep _ _ h2 (hD f (by simp [CUnit.files, hf])), by rw [hz.2]; exact h3,
    by rw [hz.1]; exact h4⟩

theorem units_known {L L' : LReg} {D : String → Prop} {T : Obj → Kind → Prop} {f : String}
    (hw : Wf S.env.canon L.m) (hk : LKeeps S L L' D T)
    (hold : ∀ x, Resolves S.env.canon L.m.reg f x →
      (L.m.kind x = .file ∨ L.m.kind x = .source) ∧ (L.m.reg.obj x).tgt = S.env.canon f)
    (hT : ∀ ob k, T ob k → ob.tgt = S.env.canon f → k = .source) :
    ∀ x, Resolves S.env.canon L'.m.reg f x →
      (L'.m.kind x = .file ∨ L'.m.kind x = .source) ∧ (L'.m.reg.obj x).tgt = S.env.canon f := by
  intro x hx
  rcases hk.1.new f x hx with hx | ⟨h1, h2, h3⟩
  · obtain ⟨e1, e2⟩ := hk.1.obj x (hw _ _ hx)
    rw [e1, e2]
    exact hold x hx
  · exact ⟨Or.inr (hT _ _ (hk.1.fresh x h1 h2) h3), h3⟩

/-- targets made for a unit are not at the paths of the sources and headers of other units, except as sources -/
theorem targetsOf_in {adddeps : List String} {c : MReg} {us : List CUnit} (hU : Units S c us adddeps) {u v : CUnit}
    (hu : u ∈ us) (hv : v ∈ us) {f : String} (hf : f ∈ CUnit.ins S v) {ob : Obj} {k : Kind}
    (hT : TargetsOf S adddeps u ob k) (ht : ob.tgt = S.env.canon f) : k = .source := by
  have hfv : f ∈ CUnit.files S v := by simp [CUnit.files, hf]
  rcases hT with ⟨g, hg, _, q, hq, rfl⟩ | ⟨hk, _⟩ | ⟨_, rfl | rfl⟩
  · change q = _ at ht
    rw [ht] at hq
    exact absurd hq (hU.nodirs v hv u hu f hfv g hg)
  · exact hk
  · exact absurd ht.symm (hU.apart u hu v hv _ (by simp [CUnit.outs]) f hf)
  · exact absurd ht.symm (hU.apart u hu v hv _ (by simp [CUnit.outs]) f hf)

/-- targets made for a unit are not at the paths of outputs of other units -/
theorem targetsOf_out {adddeps : List String} {c : MReg} {u : CUnit} {us : List CUnit}
    (hU : Units S c (u :: us) adddeps) {v : CUnit} (hv : v ∈ us) {p : String} (hp : p ∈ CUnit.outs v) {ob : Obj}
    {k : Kind} (hT : TargetsOf S adddeps u ob k) : ob.tgt ≠ S.env.canon p := by
  have hpv : p ∈ CUnit.files S v := by simp [CUnit.files, hp]
  have hv' : v ∈ u :: us := by simp [hv]
  have hdiff : ∀ g ∈ CUnit.outs u, S.env.canon g ≠ S.env.canon p := by
    have := hU.outputs
    rw [List.flatMap_cons, List.map_append, List.nodup_append] at this
    intro g hg
    exact this.2.2 _ (List.mem_map_of_mem hg) _ (List.mem_map_of_mem (List.mem_flatMap.2 ⟨v, hv, hp⟩))
  intro ht
  rcases hT with ⟨g, hg, _, q, hq, rfl⟩ | ⟨_, g, hg, rfl⟩ | ⟨_, rfl | rfl⟩
  · change q = _ at ht
    rw [ht] at hq
    exact hU.nodirs v hv' u (by simp) p hpv g hg hq
  · rcases hg with hg | rfl | ⟨hg, hx⟩
    · exact hU.apart v hv' u (by simp) p hp g hg ht
    · exact hdiff _ (by simp [CUnit.outs]) ht
    · exact hU.adds v hv' p hp g hg hx ht
  · exact hdiff _ (by simp [CUnit.outs]) ht
  · exact hdiff _ (by simp [CUnit.outs]) ht

/-- one unit -/
theorem linkObject_keeps (hE : S.env.Sane) {L L' : LReg} {opts : CxxOpts} {adddeps : List String} {u : CUnit}
    {us : List CUnit} (hw : Wf S.env.canon L.m) (hU : Units S L.m (u :: us) adddeps)
    (h : linkObject S opts adddeps L u = .ok L') :
    LKeeps S L L' (DirsOf S u) (TargetsOf S adddeps u) ∧ ∃ x y, Compiled S L' opts adddeps u x y := by
  obtain ⟨s, o, d⟩ := u
  have hmem : ((s, o, d) : CUnit) ∈ (s, o, d) :: us := by simp
  have hns := hU.nostar _ hmem
  have hnd := hU.nodirs _ hmem _ hmem
  have hfs : ∀ f ∈ s :: S.hdrs d, f ∈ CUnit.files S (s, o, d) := fun f hf => by
    simp only [CUnit.files, List.mem_append]; exact Or.inl hf
  have hfo : o ∈ CUnit.files S (s, o, d) := by simp [CUnit.files, CUnit.outs]
  have hfd : d ∈ CUnit.files S (s, o, d) := by simp [CUnit.files, CUnit.outs]
  have hod : S.env.canon d ≠ S.env.canon o := by
    have := hU.outputs
    rw [List.flatMap_cons, List.map_append, List.nodup_append] at this
    have := this.1
    simp only [CUnit.outs, List.map_cons, List.map_nil, List.nodup_cons, List.mem_singleton] at this
    exact this.1
  unfold linkObject at h
  simp only [bind, Except.bind] at h
  split at h
  · cases h
  · rename_i L1 h1
    split at h
    · cases h
    · rename_i L2 h2
      split at h
      · cases h
      · rename_i L3 h3
        have h12 : (s :: S.hdrs d).foldlM (addSource S) L = .ok L2 := by
          rw [ensureSource_eq] at h1
          simp only [List.foldlM_cons, h1, bind, Except.bind]
          have hfun : ensureSource S = addSource S := by funext L p; exact ensureSource_eq
          rw [hfun] at h2
          exact h2
        obtain ⟨hk12, hr12⟩ := addSources_keeps hE _ (fun p hp => (hns p (hfs p hp)).2)
          (fun p hp q hq => hnd p (hfs p hp) q (hfs q hq)) h12
        have hk12' : LKeeps S L L2 (DirsOf S (s, o, d)) (TargetsOf S adddeps (s, o, d)) := by
          refine hk12.mono ?_ ?_
          · rintro q ⟨p, hp, hq⟩; exact ⟨p, hfs p hp, hq⟩
          · rintro ob k ⟨p, hp, hq | ⟨hk, he⟩⟩
            · exact Or.inl ⟨p, hfs p hp, hq⟩
            · exact Or.inr (Or.inl ⟨hk, p, Or.inl hp, he⟩)
        have hfree12 : ∀ p ∈ CUnit.outs (s, o, d), Free S.env L2.m p := by
          intro p hp
          refine hk12.1.free (hU.free _ hmem p hp) ?_
          rintro ob k ⟨g, hg, ⟨_, q, hq, rfl⟩ | ⟨_, rfl⟩⟩ ht
          · change q = _ at ht
            rw [ht] at hq
            exact hnd p (by simp only [CUnit.files, List.mem_append]; exact Or.inr hp) g (hfs g hg) hq
          · exact hU.apart _ hmem _ hmem p hp g hg ht
        have hsplit : ∀ pre : List String, (∀ f ∈ pre, '*' ∉ f.toList) → ∀ r ∈ globs S.env (pre ++ adddeps ++ S.hdrs d),
            r ∈ pre ∨ r ∈ globs S.env adddeps ∨ r ∈ S.hdrs d := by
          intro pre hpre r hr
          rw [globs_append, globs_append, List.mem_append, List.mem_append] at hr
          rcases hr with (hr | hr) | hr
          · exact Or.inl (mem_globs_nostar hpre hr)
          · exact Or.inr (Or.inl hr)
          · exact Or.inr (Or.inr (mem_globs_nostar (fun f hf => (hns f (hfs f (by simp [hf]))).1) hr))
        have hs1 := hsplit [s] (by simpa using (hns s (hfs s (by simp))).1)
        have hs2 := hsplit [s, d] (by
          intro f hf
          simp only [List.mem_cons, List.not_mem_nil, or_false] at hf
          rcases hf with rfl | rfl
          · exact (hns _ (hfs _ (by simp))).1
          · exact (hns _ hfd).1)
        obtain ⟨hk3, y, cy, hcy, hny, hy1, hy2, hoy, hky, hfy, hcy'⟩ := addFile_keeps hE (hns d hfd).2 (hnd d hfd d hfd)
          (hfree12 d (by simp [CUnit.outs])) (by
            intro r hr hx
            rcases hs1 r hr with hr | hr | hr
            · rw [List.mem_singleton] at hr; subst hr
              exact hU.apart _ hmem _ hmem d (by simp [CUnit.outs]) _ (by simp [CUnit.ins])
            · exact hU.adds _ hmem d (by simp [CUnit.outs]) r hr hx
            · exact hU.apart _ hmem _ hmem d (by simp [CUnit.outs]) _ (by simp [CUnit.ins, hr])) h3
        have hk3' : LKeeps S L2 L3 (DirsOf S (s, o, d)) (TargetsOf S adddeps (s, o, d)) := by
          refine hk3.mono ?_ ?_
          · rintro q hq; exact ⟨d, hfd, hq⟩
          · rintro ob k (hq | ⟨hk, r, hr, hx, he⟩ | ⟨hk, he⟩)
            · exact Or.inl ⟨d, hfd, hq⟩
            · refine Or.inr (Or.inl ⟨hk, r, ?_, he⟩)
              rcases hs1 r hr with hr | hr | hr
              · rw [List.mem_singleton] at hr; subst hr; exact Or.inl (by simp [CUnit.ins])
              · exact Or.inr (Or.inr ⟨hr, hx⟩)
              · exact Or.inl (by simp [CUnit.ins, hr])
            · exact Or.inr (Or.inr ⟨hk, Or.inl he⟩)
        have hfree3 : Free S.env L3.m o := by
          refine hk3.1.free (hfree12 o (by simp [CUnit.outs])) ?_
          rintro ob k (⟨_, q, hq, rfl⟩ | ⟨_, r, hr, hx, rfl⟩ | ⟨_, rfl⟩) ht
          · change q = _ at ht
            rw [ht] at hq
            exact hnd o hfo d hfd hq
          · rcases hs1 r hr with hr | hr | hr
            · rw [List.mem_singleton] at hr; subst hr
              exact hU.apart _ hmem _ hmem o (by simp [CUnit.outs]) _ (by simp [CUnit.ins]) ht
            · exact hU.adds _ hmem o (by simp [CUnit.outs]) r hr hx ht
            · exact hU.apart _ hmem _ hmem o (by simp [CUnit.outs]) _ (by simp [CUnit.ins, hr]) ht
          · exact hod ht
        obtain ⟨hk4, x, cx, hcx, hnx, hx1, hx2, hox, hkx, hfx, hcx'⟩ := addFile_keeps hE (hns o hfo).2 (hnd o hfo o hfo)
          hfree3 (by
            intro r hr hx
            rcases hs2 r hr with hr | hr | hr
            · simp only [List.mem_cons, List.not_mem_nil, or_false] at hr
              rcases hr with rfl | rfl
              · exact hU.apart _ hmem _ hmem o (by simp [CUnit.outs]) _ (by simp [CUnit.ins])
              · exact hod
            · exact hU.adds _ hmem o (by simp [CUnit.outs]) r hr hx
            · exact hU.apart _ hmem _ hmem o (by simp [CUnit.outs]) _ (by simp [CUnit.ins, hr])) h
        have hk4' : LKeeps S L3 L' (DirsOf S (s, o, d)) (TargetsOf S adddeps (s, o, d)) := by
          refine hk4.mono ?_ ?_
          · rintro q hq; exact ⟨o, hfo, hq⟩
          · rintro ob k (hq | ⟨hk, r, hr, hx, he⟩ | ⟨hk, he⟩)
            · exact Or.inl ⟨o, hfo, hq⟩
            · refine Or.inr (Or.inl ⟨hk, r, ?_, he⟩)
              rcases hs2 r hr with hr | hr | hr
              · simp only [List.mem_cons, List.not_mem_nil, or_false] at hr
                rcases hr with rfl | rfl
                · exact Or.inl (by simp [CUnit.ins])
                · exact Or.inr (Or.inl rfl)
              · exact Or.inr (Or.inr ⟨hr, hx⟩)
              · exact Or.inl (by simp [CUnit.ins, hr])
            · exact Or.inr (Or.inr ⟨hk, Or.inr he⟩)
        have hk : LKeeps S L L' (DirsOf S (s, o, d)) (TargetsOf S adddeps (s, o, d)) := (hk12'.trans hk3').trans hk4'
        have hyo := hk4.1.obj y hy2
        have hyf := hk4.2 y hy2
        refine ⟨hk, x, y, hnx, hk4.1.names hny (hnd d hfd o hfo), ⟨hx2, lt_of_lt_of_le hy2 hk4.1.next⟩, hox,
          by rw [hyo.1]; exact hoy, by rw [hyo.2]; exact ⟨hkx, hky⟩, by rw [hyf.1]; exact ⟨hfx, hfy⟩,
          ⟨cx, hcx, hcx'⟩, ⟨cy, hcy, by rw [hyf.2]; exact hcy'⟩, ?_⟩
        intro f hf
        obtain ⟨z, hz⟩ := hr12 f hf
        have hz' : Resolves S.env.canon L'.m.reg f z :=
          (hk3'.trans hk4').1.keep _ _ hz (by rintro ⟨g, hg, hq⟩; exact hnd f (hfs f hf) g hg hq)
        obtain ⟨h4, h5⟩ := units_known hw hk (hU.known _ hmem f hf) (fun ob k hT ht => targetsOf_in hU hmem hmem hf hT ht) z hz'
        exact ⟨z, hk.1.wf hw _ _ hz', hz', h4, h5⟩

theorem Units.tail {c : MReg} {u : CUnit} {us : List CUnit} {adddeps : List String} (h : Units S c (u :: us) adddeps) :
    Units S c us adddeps := by
  refine ⟨fun v hv => h.nostar v (by simp [hv]), fun v hv w hw => h.nodirs v (by simp [hv]) w (by simp [hw]), ?_,
    fun v hv => h.free v (by simp [hv]), fun v hv w hw => h.apart v (by simp [hv]) w (by simp [hw]),
    fun v hv => h.adds v (by simp [hv]), fun v hv => h.known v (by simp [hv])⟩
  have := h.outputs
  rw [List.flatMap_cons, List.map_append, List.nodup_append] at this
  exact this.2.1

/-- all units -/
theorem linkAll_keeps (hE : S.env.Sane) {opts : CxxOpts} {adddeps : List String} : ∀ (us : List CUnit) {L L' : LReg},
    Wf S.env.canon L.m → Units S L.m us adddeps → us.foldlM (linkObject S opts adddeps) L = .ok L' →
    LKeeps S L L' (fun q => ∃ u ∈ us, DirsOf S u q) (fun ob k => ∃ u ∈ us, TargetsOf S adddeps u ob k) ∧
    ∀ u ∈ us, ∃ x y, Compiled S L' opts adddeps u x y := by
  intro us
  induction us with
  | nil =>
    intro L L' _ _ h
    cases h
    exact ⟨.refl _ _ _, by simp⟩
  | cons u us ih =>
    intro L L' hw hU h
    simp only [List.foldlM_cons, bind, Except.bind] at h
    split at h
    · cases h
    · rename_i L1 h1
      obtain ⟨hk1, x, y, hc⟩ := linkObject_keeps hE hw hU h1
      have hU1 : Units S L1.m us adddeps := by
        have ht := hU.tail
        refine ⟨ht.nostar, ht.nodirs, ht.outputs, fun v hv p hp => ?_, ht.apart, ht.adds, fun v hv f hf => ?_⟩
        · exact hk1.1.free (ht.free v hv p hp) fun ob k hT => targetsOf_out hU hv hp hT
        · exact units_known hw hk1 (ht.known v hv f hf) fun ob k hT he => targetsOf_in hU (by simp) (by simp [hv]) hf hT he
      obtain ⟨hk2, hcs⟩ := ih (hk1.1.wf hw) hU1 h
      refine ⟨(hk1.mono (fun q hq => ⟨u, by simp, hq⟩) fun ob k hk => ⟨u, by simp, hk⟩).trans (hk2.mono ?_ ?_), ?_⟩
      · rintro q ⟨v, hv, hq⟩; exact ⟨v, by simp [hv], hq⟩
      · rintro ob k ⟨v, hv, hq⟩; exact ⟨v, by simp [hv], hq⟩
      · intro v hv
        rcases List.mem_cons.1 hv with rfl | hv
        · refine ⟨x, y, hc.keep hk2 ?_⟩
          rintro f hf ⟨w, hw', g, hg, hq⟩
          exact hU.nodirs v (by simp) w (by simp [hw']) f hf g hg hq
        · exact hcs v hv

/-! ### C57 -/

/-- `P` is the project whose targets are those of the registry `L` -/
def LReg.Is {α : Type} (L : LReg) (P : Proj α) : Prop :=
  P.reg = L.m.reg ∧ P.kind = L.m.kind ∧ P.force = L.force

theorem mem_globs {E : Env} {l : List String} {f : String} (hf : f ∈ l) (hs : '*' ∉ f.toList) : f ∈ globs E l :=
  List.mem_flatMap.2 ⟨f, hf, by rw [if_neg hs]; exact List.mem_singleton_self f⟩

theorem objDep_of {canon : String → String} {L : LReg} {x z : Nat} {f : String} (hd : f ∈ (L.m.reg.obj x).deps)
    (hr : Resolves canon L.m.reg f z) : ObjDep canon L.m.reg x z := ⟨f, hd, hr⟩

/-- After the sources of a module have been registered, every unit has a target for its object file, which
* has the compiler call as its command;
* is out of date whenever its source, its dependency file or a header listed there is newer;
* needs work whenever one of them is missing, or when there was no dependency file;
This holds in a project `P` with any commands and for any view `V` of the file system. -/
theorem C57_units (hE : S.env.Sane) {L L' : LReg} {srcs objs deps adddeps : List String} {opts : CxxOpts}
    (hw : Wf S.env.canon L.m) (hU : Units S L.m (srcs.zip (objs.zip deps)) adddeps)
    (h : linkObjects S L srcs objs deps opts adddeps = .ok L') :
    ∀ s o d, (s, o, d) ∈ srcs.zip (objs.zip deps) → ∃ x, Names S.env L'.m o x ∧ L'.m.kind x = .file ∧
      (L'.m.reg.obj x).tgt = S.env.canon o ∧
      (∃ c, objectCommand s (S.env.canon o) opts none = .ok c ∧ L'.cmd x = some c) ∧
      ∀ {α : Type} (P : Proj α) (V : String → Info), L'.Is P →
        (∀ f, f = s ∨ f = d ∨ f ∈ S.hdrs d → (V (S.env.canon f)).mtime > (V (S.env.canon o)).mtime →
          OutOfDate P S.env.canon V x) ∧
        (∀ f, f = s ∨ f = d ∨ f ∈ S.hdrs d → (V (S.env.canon f)).exist = false → NeedsWork P S.env.canon V x) ∧
        (S.headers d = none → NeedsWork P S.env.canon V x) := by
  intro s o d hu
  obtain ⟨_, hc⟩ := linkAll_keeps hE _ hw hU h
  obtain ⟨x, y, hC⟩ := hc _ hu
  have hns := hU.nostar _ hu
  refine ⟨x, hC.objNames, hC.kinds.1, by rw [hC.objIs]; rfl, hC.objCmd, ?_⟩
  rintro α P V ⟨hreg, hkind, hforce⟩
  have hdep : ∀ f, f = s ∨ f = d ∨ f ∈ S.hdrs d → ∃ z, ObjDep S.env.canon P.reg x z ∧
      (P.kind z = .file ∨ P.kind z = .source) ∧ P.path z = S.env.canon f := by
    intro f hf
    have hmem : f ∈ (L'.m.reg.obj x).deps := by
      rw [hC.objIs]
      refine List.mem_append_left _ (mem_globs ?_ ?_)
      · rcases hf with rfl | rfl | hf
        · simp
        · simp
        · simp [hf]
      · refine (hns f ?_).1
        rcases hf with rfl | rfl | hf
        · simp [CUnit.files, CUnit.ins]
        · simp [CUnit.files, CUnit.outs]
        · simp [CUnit.files, CUnit.ins, hf]
    have hgo : ∀ z, Resolves S.env.canon L'.m.reg f z → (L'.m.kind z = .file ∨ L'.m.kind z = .source) →
        (L'.m.reg.obj z).tgt = S.env.canon f → ∃ z, ObjDep S.env.canon P.reg x z ∧
        (P.kind z = .file ∨ P.kind z = .source) ∧ P.path z = S.env.canon f := by
      intro z h1 h2 h3
      refine ⟨z, ?_, by rw [hkind]; exact h2, by show (P.reg.obj z).tgt = _; rw [hreg]; exact h3⟩
      rw [hreg]
      exact objDep_of hmem h1
    by_cases hfd : f = d
    · subst hfd
      exact hgo y (hC.depNames _ rfl) (Or.inl hC.kinds.2) (by rw [hC.depIs]; rfl)
    · obtain ⟨z, _, h1, h2, h3⟩ := hC.ins f (by
        rcases hf with rfl | rfl | hf
        · simp [CUnit.ins]
        · exact absurd rfl hfd
        · simp [CUnit.ins, hf])
      exact hgo z h1 h2 h3
  have hkx : P.kind x = .file := by rw [hkind]; exact hC.kinds.1
  have hpx : P.path x = S.env.canon o := by show (P.reg.obj x).tgt = _; rw [hreg, hC.objIs]; rfl
  refine ⟨fun f hf hlt => ?_, fun f hf hm => ?_, fun hn => ?_⟩
  · obtain ⟨z, h1, h2, h3⟩ := hdep f hf
    unfold OutOfDate
    rw [hkx]
    exact Or.inr (Or.inr ⟨z, .direct h1 h2, by rw [h3, hpx]; exact hlt⟩)
  · obtain ⟨z, h1, h2, h3⟩ := hdep f hf
    refine ⟨z, .single h1, ?_⟩
    unfold OutOfDate
    rcases h2 with h2 | h2 <;> · rw [h2]; exact Or.inr (Or.inl (by rw [h3]; exact hm))
  · refine ⟨y, .single ?_, ?_⟩
    · obtain ⟨z, h1, h2, h3⟩ := hdep d (Or.inr (Or.inl rfl))
      rw [hreg]
      refine ⟨d, ?_, hC.depNames _ rfl⟩
      rw [hC.objIs]
      exact List.mem_append_left _ (mem_globs (by simp) (hns d (by simp [CUnit.files, CUnit.outs])).1)
    · unfold OutOfDate
      rw [hkind, hC.kinds.2, hforce, hC.force.2, hn]
      exact Or.inl rfl

/-! ### an example for C57 -/

/-- `/s` and `/b` exist; `/b/a.d` lists the headers `/s/h.h` and `/s/g.h`, of which the latter is missing; there are no
directory `/c` and no dependency file `/c/b.d` -/
def demoSite : Site where
  env :=
    { canon := fun p => p
      ex := fun p => decide (p ∈ [".", "/", "//", "/s", "/b", "/s/a.c", "/s/b.c", "/s/h.h", "/b/a.d"])
      home := fun p => p
      glob := fun _ => [] }
  lim := 50
  uni := fun _ => false
  file := fun p => if p = "/b/a.d" then some "/b/a.o: /s/a.c /s/h.h \\\n /s/g.h\n".toList else none

theorem demoSite_sane : demoSite.env.Sane where
  idem _ := rfl
  home _ := rfl
  roots p h := by
    rw [← String.ofList_toList (s := p)]
    rcases h with h | h | h <;> rw [h] <;> decide
  exCanon _ h := h
  exCanonAnc _ _ := rfl
  exParent p h := by
    simp only [demoSite, decide_eq_true_eq, List.mem_cons, List.not_mem_nil, or_false] at h
    rcases h with rfl | rfl | rfl | rfl | rfl | rfl | rfl | rfl | rfl <;> decide +kernel
  up p i h := by
    rw [← parent_anc]
    generalize anc p i = q at h
    simp only [demoSite, decide_eq_true_eq, List.mem_cons, List.not_mem_nil, or_false] at h
    rcases h with rfl | rfl | rfl | rfl | rfl | rfl | rfl | rfl | rfl <;> decide +kernel
  canonParent p i _ := parent_anc p i

def demoSrcs : List String := ["/s/a.c", "/s/b.c"]
def demoObjs : List String := ["/b/a.o", "/c/b.o"]
def demoDeps : List String := ["/b/a.d", "/c/b.d"]

/-- all files of the example -/
def demoFiles : List String := ["/s/a.c", "/s/h.h", "/s/g.h", "/b/a.o", "/b/a.d", "/s/b.c", "/c/b.o", "/c/b.d"]

theorem demo_files : ∀ u ∈ demoSrcs.zip (demoObjs.zip demoDeps), ∀ f ∈ CUnit.files demoSite u, f ∈ demoFiles := by
  intro u hu
  simp only [demoSrcs, demoObjs, demoDeps, List.zip_cons_cons, List.zip_nil_right, List.mem_cons,
    List.not_mem_nil, or_false] at hu
  rcases hu with rfl | rfl
  · rw [show CUnit.files demoSite ("/s/a.c", "/b/a.o", "/b/a.d") =
      ["/s/a.c", "/s/h.h", "/s/g.h", "/b/a.d", "/b/a.o"] from by decide +kernel]
    decide +kernel
  · rw [show CUnit.files demoSite ("/s/b.c", "/c/b.o", "/c/b.d") = ["/s/b.c", "/c/b.d", "/c/b.o"] from
      by decide +kernel]
    decide +kernel

theorem demo_missing : ∀ f ∈ demoFiles, ∀ q, MissingDir demoSite.env (demoSite.env.canon f) q → q = "/c" := by
  intro f hf
  have h : ∀ i, anc f i ∈ ["/s", "/b", "/c", "/"] := by
    intro i
    induction i with
    | zero => revert f; decide +kernel
    | succ i ih =>
      rw [← parent_anc]
      generalize anc f i = q at ih
      simp only [List.mem_cons, List.not_mem_nil, or_false] at ih
      rcases ih with rfl | rfl | rfl | rfl <;> decide +kernel
  rintro q ⟨i, hx, rfl⟩
  have := h i
  change demoSite.env.ex (anc f i) = false at hx
  show anc f i = "/c"
  generalize anc f i = q at this hx
  simp only [List.mem_cons, List.not_mem_nil, or_false] at this
  rcases this with rfl | rfl | rfl | rfl <;> first | rfl | (exfalso; revert hx; decide +kernel)

theorem demo_units : Units demoSite noReg (demoSrcs.zip (demoObjs.zip demoDeps)) [] := by
  have hres : ∀ n o, ¬ Resolves demoSite.env.canon noReg.reg n o := by
    rintro n o (h | ⟨_, h⟩) <;> cases h
  refine ⟨fun u hu f hf => ?_, fun u hu v hv f hf g hg hm => ?_, by decide +kernel, fun u hu p hp n o _ => hres n o,
    fun u hu v hv p hp f hf => ?_, (by intro u hu p hp r hr; cases hr), fun u hu f hf x hx => absurd hx (hres f x)⟩
  · have h1 := demo_files u hu f hf
    have h2 : '*' ∉ f.toList := by clear hf; revert f; decide +kernel
    exact ⟨h2, h2, fun q hq => by rw [demo_missing f h1 q hq]; decide⟩
  · have h1 := demo_missing g (demo_files v hv g hg) _ hm
    have h2 := demo_files u hu f hf
    change f = "/c" at h1
    rw [h1] at h2
    revert h2; decide +kernel
  · have h1 : p ∈ ["/b/a.d", "/b/a.o", "/c/b.d", "/c/b.o"] := by
      simp only [demoSrcs, demoObjs, demoDeps, List.zip_cons_cons, List.zip_nil_right, List.mem_cons,
        List.not_mem_nil, or_false] at hu
      rcases hu with rfl | rfl <;> revert p <;> decide +kernel
    have h2 : f ∈ ["/s/a.c", "/s/h.h", "/s/g.h", "/s/b.c"] := by
      simp only [demoSrcs, demoObjs, demoDeps, List.zip_cons_cons, List.zip_nil_right, List.mem_cons,
        List.not_mem_nil, or_false] at hv
      rcases hv with rfl | rfl <;> revert f <;> decide +kernel
    show f ≠ p
    rintro rfl
    clear hp hf
    revert f; decide +kernel

def demoOpts : CxxOpts := ⟨⟨"c++", "cc", "ar", none, none⟩, "", "", "", "", "", "", "", ""⟩

/-- The assumptions of C57 hold in this example, registration succeeds, and both objects are there. -/
example : demoSite.env.Sane ∧ Wf demoSite.env.canon noReg ∧
    Units demoSite noReg (demoSrcs.zip (demoObjs.zip demoDeps)) [] ∧
    ∃ L', linkObjects demoSite ⟨noReg, fun _ => false, fun _ => none⟩ demoSrcs demoObjs demoDeps demoOpts [] = .ok L' ∧
      demoSite.headers "/b/a.d" = some ["/s/h.h", "/s/g.h"] ∧ demoSite.headers "/c/b.d" = none ∧
      L'.m.reg.targets.keys = ["/s/a.c", "/s/h.h", "/s/g.h", "/b/a.d", "/b/a.o", "/s/b.c", "/c", "/c/b.d", "/c/b.o"] ∧
      (L'.m.reg.obj 4).deps = ["/s/a.c", "/b/a.d", "/s/h.h", "/s/g.h"] :=
  ⟨demoSite_sane, wf_noReg _, demo_units, _, rfl, by decide +kernel, by decide +kernel, by decide +kernel,
    by decide +kernel⟩

end Licant.Cxx
