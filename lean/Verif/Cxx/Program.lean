/-
Programs and libraries as projects: C96 (the assumptions of the theorems about builds hold), C97 (what an edit rebuilds).
-/
import Verif.Cxx.Frame

set_option autoImplicit false

namespace Licant.Cxx
open Licant.Py Licant.Core Licant.Make Relation
open Licant.Modules (Val Opts Toolchain Lib IsModule)

/-! ### Specification -/

/-- the additional dependencies of all units of a module: the set of its local headers, `depends`, and the headers made from
`qt_ui` -/
def Parts.adds (M : Parts) (lh : String) : List String := [lh] ++ M.depends ++ M.uis.map (·.2)

/-- The registry `L` holds the whole module with the files `M`, the set `lh` of local headers and the final target `tgt`,
which is the object `x`; `F` and `A` are the files of the project. -/
structure Program (S : Site) (L : LReg) (M : Parts) (lh tgt : String) (opts : CxxOpts) (x : Nat) (F A : List String) :
    Prop where
  good : GoodD S.env L.m
  room : Room S.env L.m F A
  fit : ∀ f ∈ M.raw ++ M.made ++ M.us.flatMap (CUnit.ins S) ++ M.extra ++ [tgt], f ∈ F
  named : Names S.env L.m tgt x
  kind : L.m.kind x = .file
  is : L.m.reg.obj x = madeFrom S.env tgt M.objects
  objects : ∀ p ∈ M.objects, ∃ o, Resolves S.env.canon L.m.reg p o
  units : ∀ u ∈ M.us, ∃ xo y, Compiled S L opts (M.adds lh) u xo y
  headers : ∀ m ∈ M.headers, Made S L [] m
  uis : ∀ m ∈ M.uis, Made S L ([lh] ++ M.depends) m
  mocs : ∀ m ∈ M.mocs, Made S L (M.adds lh) m
  lhStar : '*' ∉ lh.toList
  set : ∃ l, Resolves S.env.canon L.m.reg lh l ∧ L.m.kind l = .fileset ∧
    L.m.reg.obj l = makeObj lh (globs S.env (M.headers.map (·.2)))

/-! ### C96 -/

/-- the options determine the files -/
theorem PartsOf.unique {S : Site} {loc : Opts} {M M' : Parts} (h : PartsOf S loc M) (h' : PartsOf S loc M') : M = M' := by
  obtain ⟨bd, pairs, depends, srcs, uis, mocs, h1, h2, h3, h4, h5, h6, h7, h8, h9, h10, h11, h12⟩ := h
  obtain ⟨bd', pairs', depends', srcs', uis', mocs', k1, k2, k3, k4, k5, k6, k7, k8, k9, k10, k11, k12⟩ := h'
  rw [h1] at k1; cases k1
  rw [h2] at k2; cases k2
  rw [h4] at k4; cases k4
  rw [h6] at k6; cases k6
  rw [h7] at k7; cases k7
  rw [h8] at k8; cases k8
  rw [h12] at k12
  have hh : M.headers = M'.headers := by
    clear h9 h10 h11 h12 k9 k10 k11 k12 h2
    generalize M.headers = a at h3
    generalize M'.headers = b at k3
    induction h3 generalizing b with
    | nil => cases k3; rfl
    | @cons p x ps xs hx _ ih =>
      cases k3 with
      | @cons _ y _ ys hy hys =>
        obtain ⟨x1, r, x2, x3⟩ := hx
        obtain ⟨y1, r', y2, y3⟩ := hy
        rw [x1] at y1
        rw [x2] at y2
        cases y2
        rw [ih ys hys, Prod.ext (Except.ok.inj y1) (x3.trans y3.symm)]
  cases M
  cases M'
  cases k12
  simp only at hh h5 h9 h10 h11 k5 k9 k10 k11
  simp only [Parts.mk.injEq]
  exact ⟨hh, h9.trans k9.symm, h10.trans k10.symm, h11.trans k11.symm, h5.trans k5.symm, trivial⟩

variable {S : Site} {tc : Toolchain} {fuel steps : Nat} {key : Nat → Nat} {lib lib' : Lib} {L L' : LReg}
  {script name type : String} {target impl : Option String} {default : Bool} {kwargs : Opts} {b : Built}
  {F A : List String}

/-- the registration of the files `M` and of the final target -/
theorem parts_program (hE : S.env.Sane) {L1 : LReg} {M : Parts} {lh tgt : String} {o1 o2 : CxxOpts} {f : Bool}
    {cmd : String → Except Modules.Err String} (hg : GoodD S.env L.m) (hF : M.Fit S L.m lh tgt F A)
    (h1 : registerParts S L lh M o1 o2 = .ok L1) (h2 : addFile S L1 tgt M.objects f cmd = .ok L') :
    Program S L' M lh tgt o2 (L'.m.reg.next - 1) F A ∧ Frame S L L' := by
  obtain ⟨g1, r1, fo1, fr1, ob1, un1, hd1, ui1, mo1, st1⟩ := parts_stage hE hg hF h1
  have hF' : ∀ p ∈ M.objects, p ∈ F := by
    intro p hp
    rcases List.mem_append.1 hp with hp | hp
    · obtain ⟨u, hu, rfl⟩ := List.mem_map.1 hp
      refine hF.files _ ?_
      simp only [List.mem_append, Parts.made]
      exact Or.inl (Or.inl (Or.inl (Or.inr (Or.inr (List.mem_flatMap.2 ⟨u, hu, by simp [CUnit.outs]⟩)))))
    · exact hF.files p (by simp [hp])
  have htF : tgt ∈ F := hF.files _ (by simp)
  have hglob : ∀ r ∈ globs S.env M.objects, r ∈ M.objects := fun r hr =>
    mem_globs_nostar (fun f hf => (r1.nostar f (hF' f hf)).1) hr
  have hne : ∀ r ∈ M.objects, S.env.canon r ≠ S.env.canon tgt := by
    intro r hr
    rcases List.mem_append.1 hr with hr | hr
    · obtain ⟨u, hu, rfl⟩ := List.mem_map.1 hr
      obtain ⟨_, _, d⟩ := nodup_split hF.outputs
      refine d _ ?_ _ (by simp)
      simp only [List.mem_append, Parts.made]
      exact Or.inr (List.mem_flatMap.2 ⟨u, hu, by simp [CUnit.outs]⟩)
    · exact hF.extras r hr
  have s7 := addFile_stage hE g1 r1 htF fr1 (fun r hr => ⟨hne r (hglob r hr), Or.inl (r1.leads (hF' r (hglob r hr)) (ob1 r (hglob r hr))),
    fun _ => by simp [hF' r (hglob r hr)]⟩) h2
  obtain ⟨k7, x, c, _, hn, hlo, hhi, hob, hkd, _⟩ := addFile_keeps hE (r1.nostar _ htF).2 (r1.self htF htF) fr1
    (fun r hr _ => hne r (hglob r hr)) h2
  have hx : x = L'.m.reg.next - 1 := by
    unfold addFile at h2
    simp only [bind, Except.bind] at h2
    split at h2
    · cases h2
    · split at h2
      · cases h2
      · rename_i r hr
        obtain ⟨d, t', ds⟩ := r
        cases h2
        obtain ⟨_, rfl, hds, _⟩ := fileInit_grow _ _ _ _ _ _ _ _ (liftE_ok hr)
        have h2 := add_self (canon := S.env.canon) (c := d) (ob := makeObj (S.env.canon tgt) ds) (k := .file)
        have := Resolves.unique (hn (S.env.canon tgt) (hE.idem _)) h2
        simp [this, MReg.add, Core.add]
  subst hx
  refine ⟨?_, fo1.trans s7.follows hg.wf g1.wf, ((registerParts_older h1).trans (addFile_older h2)).2⟩
  refine ⟨s7.good, s7.room, hF.files, hn, hkd, hob, fun p hp => s7.follows.some (ob1 p hp), ?_,
    fun m hm => (hd1 m hm).follow g1.wf s7.follows, fun m hm => (ui1 m hm).follow g1.wf s7.follows,
    fun m hm => (mo1 m hm).follow g1.wf s7.follows, hF.set.2.1, ?_⟩
  · intro u hu
    obtain ⟨xo, y, hc⟩ := un1 u hu
    refine ⟨xo, y, hc.keep k7 ?_⟩
    intro f hf
    refine r1.self ?_ htF
    refine hF.files f ?_
    simp only [List.mem_append, Parts.made]
    rcases List.mem_append.1 hf with hf | hf
    · exact Or.inl (Or.inl (Or.inr (List.mem_flatMap.2 ⟨u, hu, hf⟩)))
    · exact Or.inl (Or.inl (Or.inl (Or.inr (Or.inr (List.mem_flatMap.2 ⟨u, hu, hf⟩)))))
  · obtain ⟨l, i1, i2, i3⟩ := st1
    obtain ⟨j1, j2, j3⟩ := s7.follows.stays g1.wf i1 (by rw [i2]; simp)
    exact ⟨l, j1, by rw [j2]; exact i2, by rw [j3]; exact i3⟩

/-! no target is forced, if all dependency files can be read -/

theorem addFile_unforced {t : String} {deps : List String} {cmd : String → Except Modules.Err String}
    (h : addFile S L t deps false cmd = .ok L') (hf : ∀ o, L.force o = false) : ∀ o, L'.force o = false := by
  unfold addFile at h
  simp only [bind, Except.bind, pure, Except.pure] at h
  split at h
  · cases h
  · split at h
    · cases h
    · cases h
      intro o
      show (if _ then false else L.force o) = false
      split
      · rfl
      · exact hf o

theorem addSource_unforced {p : String} (h : addSource S L p = .ok L') (hf : ∀ o, L.force o = false) :
    ∀ o, L'.force o = false := by
  unfold addSource at h
  simp only [bind, Except.bind, pure, Except.pure] at h
  split at h
  · cases h
  · cases h; exact hf

theorem ensureSource_unforced {p : String} (h : ensureSource S L p = .ok L') (hf : ∀ o, L.force o = false) :
    ∀ o, L'.force o = false := by
  unfold ensureSource at h
  dsimp only at h
  split at h
  · cases h; exact hf
  · exact addSource_unforced h hf

theorem foldlM_unforced {β : Type} {g : LReg → β → Except Modules.Err LReg} : ∀ (l : List β) (L L' : LReg),
    (∀ b ∈ l, ∀ L L', g L b = .ok L' → (∀ o, L.force o = false) → ∀ o, L'.force o = false) →
    l.foldlM g L = .ok L' → (∀ o, L.force o = false) → ∀ o, L'.force o = false
  | [], L, L', _, h, hf => by cases h; exact hf
  | b :: l, L, L', hg, h, hf => by
    simp only [List.foldlM_cons, bind, Except.bind] at h
    split at h
    · cases h
    · rename_i L1 h1
      exact foldlM_unforced l L1 L' (fun b hb => hg b (by simp [hb])) h (hg b (by simp) _ _ h1 hf)

theorem linkObject_unforced {opts : CxxOpts} {adds : List String} {u : CUnit} (hu : (S.headers u.2.2).isSome = true)
    (h : linkObject S opts adds L u = .ok L') (hf : ∀ o, L.force o = false) : ∀ o, L'.force o = false := by
  obtain ⟨s, o, d⟩ := u
  unfold linkObject at h
  simp only [bind, Except.bind] at h
  split at h
  · cases h
  · rename_i L1 h1
    split at h
    · cases h
    · rename_i L2 h2
      split at h
      · cases h
      · rename_i L3 h3
        have hn : (S.headers d).isNone = false := by
          cases hd : S.headers d with
          | none => rw [hd] at hu; cases hu
          | some l => rfl
        rw [hn] at h3
        exact addFile_unforced h (addFile_unforced h3 (foldlM_unforced _ _ _
          (fun _ _ _ _ h hf => ensureSource_unforced h hf) h2 (ensureSource_unforced h1 hf)))

theorem parts_unforced {L1 : LReg} {M : Parts} {lh tgt : String} {o1 o2 : CxxOpts}
    {cmd : String → Except Modules.Err String} (h1 : registerParts S L lh M o1 o2 = .ok L1)
    (h2 : addFile S L1 tgt M.objects false cmd = .ok L') (hf : ∀ o, L.force o = false)
    (hu : ∀ u ∈ M.us, (S.headers u.2.2).isSome = true) : ∀ o, L'.force o = false := by
  refine addFile_unforced h2 ?_
  unfold registerParts at h1
  simp only [bind, Except.bind] at h1
  split at h1
  · cases h1
  · rename_i La ha
    split at h1
    · cases h1
    · rename_i Lb hb
      split at h1
      · cases h1
      · rename_i Lc hc
        split at h1
        · cases h1
        · rename_i Ld hd
          split at h1
          · cases h1
          · rename_i Le he
            refine foldlM_unforced _ _ _ (fun _ _ _ _ h hf => addSource_unforced h hf) h1 ?_
            refine foldlM_unforced _ _ _ (fun u hm _ _ h hf => linkObject_unforced (hu u hm) h hf) he ?_
            refine foldlM_unforced _ _ _ ?_ hd (foldlM_unforced _ _ _ ?_ hc ?_)
            · intro m _ _ _ h hf
              split at h
              · cases h
              · rename_i h0
                exact addFile_unforced h (addSource_unforced h0 hf)
            · intro m _ _ _ h hf
              split at h
              · cases h
              · rename_i h0
                exact addFile_unforced h (addSource_unforced h0 hf)
            · have : ∀ o, La.force o = false := by
                refine foldlM_unforced _ _ _ ?_ ha hf
                intro m _ _ _ h hf
                split at h
                · cases h
                · rename_i h0
                  unfold addCopy at h
                  simp only [bind, Except.bind] at h
                  split at h
                  · cases h
                  · rename_i h01
                    exact addFile_unforced h (addSource_unforced h01 (addSource_unforced h0 hf))
              unfold addFileset at hb
              simp only [bind, Except.bind, pure, Except.pure] at hb
              split at hb
              · cases hb
              · cases hb; exact this

/-- C96 with the options that the compiler gets -/
theorem task_program {rule : String → List String → CxxOpts → Except Modules.Err String} (hE : S.env.Sane)
    (hty : Linked type rule) (hd : impl = none ∨ default = true) (hg : GoodD S.env L.m)
    (h : task S tc fuel steps key lib L script name target impl default type kwargs = .ok ((lib', L'), b)) :
    ∃ lib1 o loc opts x L0 L1 R objs,
      lib.module script (taskModule name type) impl default (taskOpts name type target kwargs) = .ok lib1 ∧
      IsModule (lib1.obj o) (taskModule name type) (impl.getD "__default__") script (taskOpts name type target kwargs) ∧
      lib1.get (taskModule name type) none = .ok (lib1, o) ∧
      finalOpts tc S.env.home fuel steps key lib1 (taskModule name type) none (setDefaults tc []) = .ok (lib', loc) ∧
      b = .target x ∧ makeObjects S L0 (taskModule name type) loc = .ok (L1, objs, R) ∧ cxxOptions S.env.home R = .ok opts ∧
      (∃ M, PartsOf S loc M) ∧
      ∀ M F A, PartsOf S loc M → M.Fit S L.m (taskModule name type ++ "__local_headers__") (target.getD name) F A →
        Program S L' M (taskModule name type ++ "__local_headers__") (target.getD name) opts x F A ∧ Frame S L L' ∧
        (∃ cmd, rule (S.env.canon (target.getD name)) M.objects opts = .ok cmd ∧ L'.cmd x = some cmd) ∧
        ((∀ o, L.force o = false) → (∀ u ∈ M.us, (S.headers u.2.2).isSome = true) → ∀ o, L'.force o = false) ∧
        ∀ {α : Type} (P : Proj α), L'.Is P → (∀ p q, q ∈ P.parents p → IsAnc q p) →
          Sound P S.env.canon ∧ Registered P.reg x ∧ P.kind x = .file ∧ AllRegistered S.env.canon P.reg (P.path x) := by
  obtain ⟨hrule, hno⟩ := linked_rule hty
  obtain ⟨lib1, L1, b1, R, h1, h2, h3⟩ := task_ok h
  obtain ⟨o, hget, hmod⟩ := module_lookup hd h1
  obtain ⟨depth, _, h4⟩ := prepareTargets_ok h2
  obtain ⟨lib2, loc, L2, objs, v, subs, L3, res, h5, h6, h7, h8, h9, h9', h10⟩ := modmake_ok h4
  obtain ⟨ft, ftg, _, _, fm⟩ := finalOpts_task hget hmod h5
  obtain ⟨M, o1, o2, hM, rfl, hR, e5, e6, _⟩ := makeObjects_parts h6
  obtain ⟨t, ht, h11⟩ := finishTarget_ok h10
  have ht' : t = type := by
    have := ft type taskOpts_type
    unfold text at ht
    rw [hR "type" (by decide), this] at ht
    cases ht; rfl
  subst ht'
  rcases h3 with ⟨_, rfl, rfl⟩ | ⟨ho, _⟩
  · rcases h11 with ⟨_, opts', tgt, srcs', f1, f2, f3, f4, f5⟩ | ⟨ho, _⟩
    · rw [e5] at f1
      cases f1
      have hsubs : subs = [] := by
        cases subs with
        | nil => rfl
        | cons a l => exact absurd f3 (allStrings_none (by rw [h9]; simp) _)
      obtain ⟨rfl, rfl⟩ := h9' hsubs
      subst hsubs
      rw [show res = [] from h9, List.append_nil, allStrings_some] at f3
      cases f3
      have htg : tgt = target.getD name := by
        have := ftg _ (taskOpts_target hno)
        unfold text at f2
        rw [hR "target" (by decide), this] at f2
        cases f2; rfl
      subst htg
      refine ⟨lib1, o, loc, o2, L'.m.reg.next - 1, _, _, R, _, h1, hmod, hget, h5, f5, h6, e5, ⟨M, hM⟩, fun M' F A hM' hF => ?_⟩
      cases PartsOf.unique hM hM'
      obtain ⟨hprog, hframe⟩ := parts_program hE hg hF e6 f4
      refine ⟨hprog, hframe, ?_, parts_unforced e6 f4, fun P hP hpar => ?_⟩
      · unfold addFile at f4
        simp only [bind, Except.bind] at f4
        split at f4
        · cases f4
        rename_i cmd hc
        split at f4
        · cases f4
        cases f4
        exact ⟨cmd, hrule ▸ hc, by simp [MReg.add, Core.add]⟩
      obtain ⟨hreg, hkind, _⟩ := hP
      obtain ⟨hS, hall⟩ := hprog.good.sound hE P hreg hkind hpar
      have hres : Resolves S.env.canon P.reg (P.path (L'.m.reg.next - 1)) (L'.m.reg.next - 1) := by
        show Resolves S.env.canon P.reg (P.reg.obj (L'.m.reg.next - 1)).tgt _
        rw [hreg, hprog.is]
        exact hprog.named _ (hE.idem _)
      refine ⟨hS, ?_, by rw [hkind]; exact hprog.kind, hall _ _ hres⟩
      rcases hres with h | ⟨_, h⟩
      · exact ⟨_, h⟩
      · exact ⟨_, h⟩
    · exact absurd ho hno
  · exact absurd ho hno

/-- **C96**: `application`, `shared_library` and `static_library` register a complete project.  If the files of the module
fit into the default core (`Parts.Fit`: the outputs are different files, not registered yet, not read before they are made,
and no file is used as a directory) then the dependency graph is acyclic and complete, and all other assumptions of the
theorems about builds hold, whatever the commands do.  No target is forced if all dependency files can be read.  `M` are the
files that the final options `loc` name
(`PartsOf.unique`: there is only one such `M`). -/
theorem C96_project {rule : String → List String → CxxOpts → Except Modules.Err String} (hE : S.env.Sane)
    (hty : Linked type rule) (hd : impl = none ∨ default = true) (hg : GoodD S.env L.m)
    (h : task S tc fuel steps key lib L script name target impl default type kwargs = .ok ((lib', L'), b)) :
    ∃ lib1 o loc opts x,
      IsModule (lib1.obj o) (taskModule name type) (impl.getD "__default__") script (taskOpts name type target kwargs) ∧
      lib1.get (taskModule name type) none = .ok (lib1, o) ∧
      finalOpts tc S.env.home fuel steps key lib1 (taskModule name type) none (setDefaults tc []) = .ok (lib', loc) ∧
      b = .target x ∧ (∃ M, PartsOf S loc M) ∧
      ∀ M F A, PartsOf S loc M → M.Fit S L.m (taskModule name type ++ "__local_headers__") (target.getD name) F A →
        Program S L' M (taskModule name type ++ "__local_headers__") (target.getD name) opts x F A ∧
        ((∀ o, L.force o = false) → (∀ u ∈ M.us, (S.headers u.2.2).isSome = true) → ∀ o, L'.force o = false) ∧
        ∀ {α : Type} (P : Proj α), L'.Is P → (∀ p q, q ∈ P.parents p → IsAnc q p) →
          Sound P S.env.canon ∧ Registered P.reg x ∧ P.kind x = .file ∧ AllRegistered S.env.canon P.reg (P.path x) := by
  obtain ⟨lib1, o, loc, opts, x, _, _, _, _, _, h1, h2, h3, h4, _, _, h5, h6⟩ :=
    task_program hE hty hd hg h
  refine ⟨lib1, o, loc, opts, x, h1, h2, h3, h4, h5, fun M F A hM hF => ?_⟩
  obtain ⟨h7, _, _, h8⟩ := h6 M F A hM hF
  exact ⟨h7, h8⟩

/-! ### C97 -/

/-- The source `z` is used for the unit `u`: it is the source or a known header of `u`, a local header of the module, a file
of `qt_ui`, one of `depends`, or a file of `qt_moc` from which an input of `u` is made. -/
def UsedBy (S : Site) (L : LReg) (M : Parts) (u : CUnit) (z : Nat) : Prop :=
  ∃ f, Resolves S.env.canon L.m.reg f z ∧
    (f ∈ CUnit.ins S u ∨ (∃ m ∈ M.headers ++ M.uis, f = m.1) ∨ f ∈ globs S.env M.depends ∨
      ∃ m ∈ M.mocs, f = m.1 ∧ ∃ g ∈ CUnit.ins S u, S.env.canon g = S.env.canon m.2)

/-- Nothing is made outside of the module: there are no other dependencies, and inputs are sources or made in the module. -/
structure SelfContained (S : Site) (L : LReg) (M : Parts) : Prop where
  depends : M.depends = []
  raw : ∀ f ∈ M.raw, ∀ y, Resolves S.env.canon L.m.reg f y → L.m.kind y = .source
  ins : ∀ u ∈ M.us, ∀ f ∈ CUnit.ins S u, (∀ y, Resolves S.env.canon L.m.reg f y → L.m.kind y = .source) ∨
    ∃ m ∈ M.headers ++ M.uis ++ M.mocs, S.env.canon f = S.env.canon m.2

/-- the same path, the same target -/
theorem _root_.Licant.Make.GoodD.same {E : Env} {c : MReg} (hi : Idempotent E.canon) (hg : GoodD E c) {n m : String} {a b : Nat}
    (ha : Resolves E.canon c.reg n a) (hb : Resolves E.canon c.reg m b) (hka : c.kind a ≠ .fileset ∧ c.kind a ≠ .other)
    (hkb : c.kind b ≠ .fileset ∧ c.kind b ≠ .other) (e : E.canon n = E.canon m) : a = b := by
  have h1 : (c.reg.obj a).tgt = (c.reg.obj b).tgt := by
    rw [← hg.canonT a (hg.wf _ _ ha) hka.1 hka.2, ← hg.canonT b (hg.wf _ _ hb) hkb.1 hkb.2, ← hg.canonEq hi ha, ← hg.canonEq hi hb, e]
  have hs : ∀ n a, Resolves E.canon c.reg n a → c.reg.targets.get (c.reg.obj a).tgt = some a := by
    rintro n a (h | ⟨_, h⟩)
    · exact hg.self _ _ h
    · exact hg.self _ _ h
  have h2 := hs n a ha
  rw [h1, hs m b hb] at h2
  exact (Option.some.inj h2).symm

variable {M : Parts} {lh tgt : String} {opts : CxxOpts} {x : Nat}

theorem Made.dep {m : String × String} {adds : List String} (h : Made S L adds m) (hs : '*' ∉ m.1.toList) {y z : Nat}
    (hy : Resolves S.env.canon L.m.reg m.2 y) (hz : Resolves S.env.canon L.m.reg m.1 z) :
    ObjDep S.env.canon L.m.reg y z := by
  obtain ⟨y', _, h1, _, h3, _⟩ := h
  rw [Resolves.unique hy h1]
  refine ⟨m.1, ?_, hz⟩
  rw [h3]
  exact List.mem_append_left _ (mem_globs (by simp) hs)

theorem Compiled.dep {adds : List String} {u : CUnit} {xo y : Nat} (h : Compiled S L opts adds u xo y) {f : String} {z : Nat}
    (hf : f ∈ globs S.env ([u.1, u.2.2] ++ adds ++ S.hdrs u.2.2)) (hz : Resolves S.env.canon L.m.reg f z) :
    ObjDep S.env.canon L.m.reg xo z := by
  refine ⟨f, ?_, hz⟩
  rw [h.objIs]
  exact List.mem_append_left _ hf

theorem Program.star (hp : Program S L M lh tgt opts x F A) {f : String}
    (hf : f ∈ M.raw ++ M.made ++ M.us.flatMap (CUnit.ins S) ++ M.extra ++ [tgt]) : '*' ∉ f.toList :=
  (hp.room.nostar f (hp.fit f hf)).1

theorem Program.raw_mem (hp : Program S L M lh tgt opts x F A) {m : String × String}
    (hm : m ∈ M.headers ++ M.uis ++ M.mocs) : m.1 ∈ M.raw ∧ m.2 ∈ M.made ∧ m.1 ∈ F ∧ m.2 ∈ F ∧ '*' ∉ m.1.toList ∧
      '*' ∉ m.2.toList := by
  have h1 : m.1 ∈ M.raw := by
    simp only [List.mem_append] at hm
    simp only [Parts.raw, List.mem_append, List.mem_map]
    rcases hm with (h | h) | h
    · exact Or.inl (Or.inl ⟨m, h, rfl⟩)
    · exact Or.inl (Or.inr ⟨m, h, rfl⟩)
    · exact Or.inr ⟨m, h, rfl⟩
  have h2 : m.2 ∈ M.made := by
    simp only [List.mem_append] at hm
    simp only [Parts.made, List.mem_append, List.mem_map]
    rcases hm with (h | h) | h
    · exact Or.inl (Or.inl (Or.inl ⟨m, h, rfl⟩))
    · exact Or.inl (Or.inl (Or.inr ⟨m, h, rfl⟩))
    · exact Or.inl (Or.inr ⟨m, h, rfl⟩)
  exact ⟨h1, h2, hp.fit _ (by simp [h1]), hp.fit _ (by simp [h2]), hp.star (by simp [h1]), hp.star (by simp [h2])⟩

theorem Program.made (hp : Program S L M lh tgt opts x F A) {m : String × String}
    (hm : m ∈ M.headers ++ M.uis ++ M.mocs) : ∃ adds, Made S L adds m ∧
      (adds = [] ∨ adds = [lh] ++ M.depends ∨ adds = M.adds lh) := by
  simp only [List.mem_append] at hm
  rcases hm with (h | h) | h
  · exact ⟨_, hp.headers m h, Or.inl rfl⟩
  · exact ⟨_, hp.uis m h, Or.inr (Or.inl rfl)⟩
  · exact ⟨_, hp.mocs m h, Or.inr (Or.inr rfl)⟩

/-- what is used for a unit is a dependency of its object -/
theorem Program.uses (hE : S.env.Sane) (hp : Program S L M lh tgt opts x F A) {u : CUnit} (hu : u ∈ M.us) {xo y z : Nat}
    (hc : Compiled S L opts (M.adds lh) u xo y) (hz : UsedBy S L M u z) : TransGen (ObjDep S.env.canon L.m.reg) xo z := by
  have hins : ∀ f ∈ CUnit.ins S u, f ∈ globs S.env ([u.1, u.2.2] ++ M.adds lh ++ S.hdrs u.2.2) := by
    intro f hf
    refine mem_globs ?_ (hp.star (by
      simp only [List.mem_append]; exact Or.inl (Or.inl (Or.inr (List.mem_flatMap.2 ⟨u, hu, hf⟩)))))
    rcases List.mem_cons.1 hf with rfl | hf
    · simp
    · simp [hf]
  have hadd : ∀ f ∈ globs S.env (M.adds lh), f ∈ globs S.env ([u.1, u.2.2] ++ M.adds lh ++ S.hdrs u.2.2) := by
    intro f hf
    rw [globs_append, globs_append]
    exact List.mem_append_left _ (List.mem_append_right _ hf)
  obtain ⟨f, hf, h | ⟨m, hm, rfl⟩ | h | ⟨m, hm, rfl, g, hg, he⟩⟩ := hz
  · exact .single (hc.dep (hins f h) hf)
  · rcases List.mem_append.1 hm with hm | hm
    · obtain ⟨hr1, hr2, _, _, hs1, hs2⟩ := hp.raw_mem (m := m) (by simp [hm])
      obtain ⟨c, hcr⟩ := (hp.headers m hm).resolves
      obtain ⟨l, hl1, _, hl2⟩ := hp.set
      refine .head (hc.dep (hadd lh ?_) hl1) (.head ?_ (.single ((hp.headers m hm).dep hs1 hcr hf)))
      · exact mem_globs (by simp [Parts.adds]) hp.lhStar
      · refine ⟨m.2, ?_, hcr⟩
        rw [hl2]
        exact mem_globs (List.mem_map_of_mem hm) hs2
    · obtain ⟨hr1, hr2, _, _, hs1, hs2⟩ := hp.raw_mem (m := m) (by simp [hm])
      obtain ⟨c, hcr⟩ := (hp.uis m hm).resolves
      refine .head (hc.dep (hadd m.2 ?_) hcr) (.single ((hp.uis m hm).dep hs1 hcr hf))
      refine mem_globs ?_ hs2
      simp only [Parts.adds, List.mem_append]
      exact Or.inr (List.mem_map_of_mem hm)
  · refine .single (hc.dep (hadd f ?_) hf)
    unfold Parts.adds
    rw [globs_append, globs_append]
    exact List.mem_append_left _ (List.mem_append_right _ h)
  · obtain ⟨hr1, hr2, _, hF2, hs1, hs2⟩ := hp.raw_mem (m := m) (by simp [hm])
    obtain ⟨c, hcr⟩ := (hp.mocs m hm).resolves
    obtain ⟨w, _, hw, hwk, _⟩ := hc.ins g hg
    have hgF : g ∈ F := hp.fit g (by
      simp only [List.mem_append]; exact Or.inl (Or.inl (Or.inr (List.mem_flatMap.2 ⟨u, hu, hg⟩))))
    have : w = c := hp.good.same hE.idem hw hcr (fileLike_ne (hp.room.known g hgF w hw)).2
      (fileLike_ne (hp.room.known _ hF2 c hcr)).2 he
    subst this
    exact .head (hc.dep (hins g hg) hw) (.single ((hp.mocs m hm).dep hs1 hcr hf))

/-- the final target depends on all objects -/
theorem Program.links (hp : Program S L M lh tgt opts x F A) {u : CUnit} (hu : u ∈ M.us) {xo y : Nat}
    (hc : Compiled S L opts (M.adds lh) u xo y) : ObjDep S.env.canon L.m.reg x xo := by
  refine ⟨u.2.1, ?_, hc.objNames _ rfl⟩
  rw [hp.is]
  refine List.mem_append_left _ (mem_globs ?_ (hp.star ?_))
  · simp only [Parts.objects, List.mem_append]
    exact Or.inl (List.mem_map.2 ⟨u, hu, rfl⟩)
  · simp only [List.mem_append, Parts.made]
    exact Or.inl (Or.inl (Or.inl (Or.inr (Or.inr (List.mem_flatMap.2 ⟨u, hu, by simp [CUnit.outs]⟩)))))

/-! the converse: what an object depends on is used for it -/

/-- dependencies of a file on directories -/
theorem Program.dirs (hp : Program S L M lh tgt opts x F A) {f : String} (hf : f ∈ F) {r : String}
    (hr : r ∈ dirDep S.env true (S.env.canon f)) {o : Nat} (ho : Resolves S.env.canon L.m.reg r o) : L.m.kind o = .dir := by
  unfold dirDep at hr
  split at hr
  · rename_i h
    rw [List.mem_singleton] at hr
    subst hr
    refine (hp.room.clear f hf).taken 0 o ?_ (Or.inl ?_)
    · simpa [anc_zero] using h
    · simpa [anc_zero] using ho
  · cases hr

theorem Program.from_dir (hp : Program S L M lh tgt opts x F A) {a z : Nat} (ha : L.m.kind a = .source ∨ L.m.kind a = .dir)
    (hz : L.m.kind z = .source) (h : ReflTransGen (ObjDep S.env.canon L.m.reg) a z) : a = z := by
  have key : ∀ c, TransGen (ObjDep S.env.canon L.m.reg) a c → L.m.kind c = .dir := by
    intro c hc
    induction hc with
    | single h => exact (hp.good.dirDep ha h).1
    | tail _ h ih => exact (hp.good.dirDep (Or.inr ih) h).1
  rcases reflTransGen_iff_eq_or_transGen.1 h with h | h
  · exact h.symm
  · rw [key z h] at hz; cases hz

/-- the first step from a file to a source -/
theorem Program.first (hp : Program S L M lh tgt opts x F A) {f : String} (hf : f ∈ F) {deps : List String} {a z : Nat}
    (ha : L.m.reg.obj a = madeFrom S.env f deps) (hk : L.m.kind a = .file)
    (hz : L.m.kind z = .source) (h : ReflTransGen (ObjDep S.env.canon L.m.reg) a z) :
    ∃ r ∈ globs S.env deps, ∃ c, Resolves S.env.canon L.m.reg r c ∧ ReflTransGen (ObjDep S.env.canon L.m.reg) c z := by
  rcases ReflTransGen.cases_head h with rfl | ⟨c, ⟨r, hr, hrc⟩, hcz⟩
  · rw [hk] at hz; cases hz
  · rw [ha] at hr
    rcases List.mem_append.1 hr with hr | hr
    · exact ⟨r, hr, c, hrc, hcz⟩
    · have hd := hp.dirs hf hr hrc
      have := hp.from_dir (Or.inr hd) hz hcz
      subst this
      rw [hz] at hd; cases hd

theorem Program.from_raw (hp : Program S L M lh tgt opts x F A) (hc : SelfContained S L M) {f : String} (hf : f ∈ M.raw)
    {a z : Nat} (ha : Resolves S.env.canon L.m.reg f a) (hz : L.m.kind z = .source)
    (h : ReflTransGen (ObjDep S.env.canon L.m.reg) a z) : Resolves S.env.canon L.m.reg f z := by
  rw [← hp.from_dir (Or.inl (hc.raw f hf a ha)) hz h]
  exact ha

theorem Program.from_header (hp : Program S L M lh tgt opts x F A) (hc : SelfContained S L M) {m : String × String}
    (hm : m ∈ M.headers) {a z : Nat} (ha : Resolves S.env.canon L.m.reg m.2 a) (hz : L.m.kind z = .source)
    (h : ReflTransGen (ObjDep S.env.canon L.m.reg) a z) : Resolves S.env.canon L.m.reg m.1 z := by
  obtain ⟨hr1, _, _, hF2, hs1, _⟩ := hp.raw_mem (m := m) (by simp [hm])
  obtain ⟨a', _, h1, h2, h3, _⟩ := hp.headers m hm
  cases Resolves.unique ha h1
  obtain ⟨r, hr, c, hrc, hcz⟩ := hp.first hF2 h3 h2 hz h
  have : r = m.1 := by simpa using mem_globs_nostar (by simpa using hs1) hr
  subst this
  exact hp.from_raw hc hr1 hrc hz hcz

theorem Program.from_set (hp : Program S L M lh tgt opts x F A) (hc : SelfContained S L M) {a z : Nat}
    (ha : Resolves S.env.canon L.m.reg lh a) (hz : L.m.kind z = .source)
    (h : ReflTransGen (ObjDep S.env.canon L.m.reg) a z) : ∃ m ∈ M.headers, Resolves S.env.canon L.m.reg m.1 z := by
  obtain ⟨l, h1, h2, h3⟩ := hp.set
  cases Resolves.unique ha h1
  rcases ReflTransGen.cases_head h with rfl | ⟨c, ⟨r, hr, hrc⟩, hcz⟩
  · rw [h2] at hz; cases hz
  · rw [h3] at hr
    have := mem_globs_nostar (by
      intro f hf
      obtain ⟨m, hm, rfl⟩ := List.mem_map.1 hf
      exact (hp.raw_mem (m := m) (by simp [hm])).2.2.2.2.2) hr
    obtain ⟨m, hm, rfl⟩ := List.mem_map.1 this
    exact ⟨m, hm, hp.from_header hc hm hrc hz hcz⟩

theorem Program.from_ui (hp : Program S L M lh tgt opts x F A) (hc : SelfContained S L M) {m : String × String}
    (hm : m ∈ M.uis) {a z : Nat} (ha : Resolves S.env.canon L.m.reg m.2 a) (hz : L.m.kind z = .source)
    (h : ReflTransGen (ObjDep S.env.canon L.m.reg) a z) :
    ∃ m ∈ M.headers ++ M.uis, Resolves S.env.canon L.m.reg m.1 z := by
  obtain ⟨hr1, _, _, hF2, hs1, _⟩ := hp.raw_mem (m := m) (by simp [hm])
  obtain ⟨a', _, h1, h2, h3, _⟩ := hp.uis m hm
  cases Resolves.unique ha h1
  obtain ⟨r, hr, c, hrc, hcz⟩ := hp.first hF2 h3 h2 hz h
  rw [hc.depends] at hr
  have : r = m.1 ∨ r = lh := by
    have := mem_globs_nostar (by
      intro f hf
      simp only [List.append_nil, List.mem_append, List.mem_singleton] at hf
      rcases hf with rfl | rfl
      · exact hs1
      · exact hp.lhStar) hr
    simpa using this
  rcases this with rfl | rfl
  · exact ⟨m, by simp [hm], hp.from_raw hc hr1 hrc hz hcz⟩
  · obtain ⟨n, hn, h⟩ := hp.from_set hc hrc hz hcz
    exact ⟨n, by simp [hn], h⟩

theorem Program.from_adds (hp : Program S L M lh tgt opts x F A) (hc : SelfContained S L M) {r : String}
    (hr : r ∈ globs S.env (M.adds lh)) {a z : Nat} (ha : Resolves S.env.canon L.m.reg r a) (hz : L.m.kind z = .source)
    (h : ReflTransGen (ObjDep S.env.canon L.m.reg) a z) :
    ∃ m ∈ M.headers ++ M.uis, Resolves S.env.canon L.m.reg m.1 z := by
  unfold Parts.adds at hr
  rw [hc.depends] at hr
  have := mem_globs_nostar (by
    intro f hf
    simp only [List.append_nil, List.mem_append, List.mem_singleton, List.mem_map] at hf
    rcases hf with rfl | ⟨m, hm, rfl⟩
    · exact hp.lhStar
    · exact (hp.raw_mem (m := m) (by simp [hm])).2.2.2.2.2) hr
  simp only [List.append_nil, List.mem_append, List.mem_singleton, List.mem_map] at this
  rcases this with rfl | ⟨m, hm, rfl⟩
  · obtain ⟨n, hn, h⟩ := hp.from_set hc ha hz h
    exact ⟨n, by simp [hn], h⟩
  · exact hp.from_ui hc hm ha hz h

theorem Program.from_moc (hp : Program S L M lh tgt opts x F A) (hc : SelfContained S L M) {m : String × String}
    (hm : m ∈ M.mocs) {a z : Nat} (ha : Resolves S.env.canon L.m.reg m.2 a) (hz : L.m.kind z = .source)
    (h : ReflTransGen (ObjDep S.env.canon L.m.reg) a z) : Resolves S.env.canon L.m.reg m.1 z ∨
    ∃ m ∈ M.headers ++ M.uis, Resolves S.env.canon L.m.reg m.1 z := by
  obtain ⟨hr1, _, _, hF2, hs1, _⟩ := hp.raw_mem (m := m) (by simp [hm])
  obtain ⟨a', _, h1, h2, h3, _⟩ := hp.mocs m hm
  cases Resolves.unique ha h1
  obtain ⟨r, hr, c, hrc, hcz⟩ := hp.first hF2 h3 h2 hz h
  rw [globs_append, List.mem_append] at hr
  rcases hr with hr | hr
  · have : r = m.1 := by simpa using mem_globs_nostar (by simpa using hs1) hr
    subst this
    exact Or.inl (hp.from_raw hc hr1 hrc hz hcz)
  · exact Or.inr (hp.from_adds hc hr hrc hz hcz)

theorem Program.from_in (hE : S.env.Sane) (hp : Program S L M lh tgt opts x F A) (hc : SelfContained S L M) {u : CUnit}
    (hu : u ∈ M.us) {f : String} (hf : f ∈ CUnit.ins S u) {a z : Nat} (ha : Resolves S.env.canon L.m.reg f a)
    (hz : L.m.kind z = .source) (h : ReflTransGen (ObjDep S.env.canon L.m.reg) a z) : UsedBy S L M u z := by
  have hfF : f ∈ F := hp.fit f (by
    simp only [List.mem_append]; exact Or.inl (Or.inl (Or.inr (List.mem_flatMap.2 ⟨u, hu, hf⟩))))
  rcases hc.ins u hu f hf with hs | ⟨m, hm, he⟩
  · have := hp.from_dir (Or.inl (hs a ha)) hz h
    subst this
    exact ⟨f, ha, Or.inl hf⟩
  · obtain ⟨_, hmade, _⟩ := hp.made hm
    obtain ⟨c, hcr⟩ := hmade.resolves
    obtain ⟨_, _, _, hF2, _, _⟩ := hp.raw_mem hm
    have : a = c := hp.good.same hE.idem ha hcr (fileLike_ne (hp.room.known f hfF a ha)).2
      (fileLike_ne (hp.room.known _ hF2 c hcr)).2 he
    subst this
    rcases List.mem_append.1 hm with hm | hm
    · have : ∃ m ∈ M.headers ++ M.uis, Resolves S.env.canon L.m.reg m.1 z := by
        rcases List.mem_append.1 hm with hm | hm
        · exact ⟨m, by simp [hm], hp.from_header hc hm hcr hz h⟩
        · exact hp.from_ui hc hm hcr hz h
      obtain ⟨n, hn, hr⟩ := this
      exact ⟨n.1, hr, Or.inr (Or.inl ⟨n, hn, rfl⟩)⟩
    · rcases hp.from_moc hc hm hcr hz h with hr | ⟨n, hn, hr⟩
      · exact ⟨m.1, hr, Or.inr (Or.inr (Or.inr ⟨m, hm, rfl, f, hf, he⟩))⟩
      · exact ⟨n.1, hr, Or.inr (Or.inl ⟨n, hn, rfl⟩)⟩

/-- an object depends only on what is used for it -/
theorem Program.only (hE : S.env.Sane) (hp : Program S L M lh tgt opts x F A) (hc : SelfContained S L M) {u : CUnit}
    (hu : u ∈ M.us) {xo y z : Nat} (hcomp : Compiled S L opts (M.adds lh) u xo y) (hz : L.m.kind z = .source)
    (h : TransGen (ObjDep S.env.canon L.m.reg) xo z) : UsedBy S L M u z := by
  have hfile : ∀ f ∈ CUnit.files S u, f ∈ F ∧ '*' ∉ f.toList := by
    intro f hf
    have : f ∈ F := by
      refine hp.fit f ?_
      simp only [List.mem_append, Parts.made]
      rcases List.mem_append.1 hf with hf | hf
      · exact Or.inl (Or.inl (Or.inr (List.mem_flatMap.2 ⟨u, hu, hf⟩)))
      · exact Or.inl (Or.inl (Or.inl (Or.inr (Or.inr (List.mem_flatMap.2 ⟨u, hu, hf⟩)))))
    exact ⟨this, (hp.room.nostar f this).1⟩
  have hin : ∀ f ∈ CUnit.ins S u, f ∈ F ∧ '*' ∉ f.toList := fun f hf => hfile f (by simp [CUnit.files, hf])
  have hout : ∀ f ∈ CUnit.outs u, f ∈ F ∧ '*' ∉ f.toList := fun f hf => hfile f (by simp [CUnit.files, hf])
  have hrest : ∀ r c, r = u.1 ∨ r ∈ globs S.env (M.adds lh) ∨ r ∈ S.hdrs u.2.2 → Resolves S.env.canon L.m.reg r c →
      ReflTransGen (ObjDep S.env.canon L.m.reg) c z → UsedBy S L M u z := by
    rintro r c (rfl | hr | hr) hrc hcz
    · exact hp.from_in hE hc hu (by simp [CUnit.ins]) hrc hz hcz
    · obtain ⟨n, hn, hr⟩ := hp.from_adds hc hr hrc hz hcz
      exact ⟨n.1, hr, Or.inr (Or.inl ⟨n, hn, rfl⟩)⟩
    · exact hp.from_in hE hc hu (by simp [CUnit.ins, hr]) hrc hz hcz
  have hhd : ∀ r ∈ globs S.env (S.hdrs u.2.2), r ∈ S.hdrs u.2.2 := fun r hr =>
    mem_globs_nostar (fun f hf => (hin f (by simp [CUnit.ins, hf])).2) hr
  obtain ⟨r, hr, c, hrc, hcz⟩ := hp.first (hout u.2.1 (by simp [CUnit.outs])).1 hcomp.objIs hcomp.kinds.1 hz
    h.to_reflTransGen
  rw [globs_append, globs_append, List.mem_append, List.mem_append] at hr
  rcases hr with (hr | hr) | hr
  · have := mem_globs_nostar (by
      intro f hf
      simp only [List.mem_cons, List.not_mem_nil, or_false] at hf
      rcases hf with rfl | rfl
      · exact (hin _ (by simp [CUnit.ins])).2
      · exact (hout _ (by simp [CUnit.outs])).2) hr
    simp only [List.mem_cons, List.not_mem_nil, or_false] at this
    rcases this with rfl | rfl
    · exact hrest _ c (Or.inl rfl) hrc hcz
    · cases Resolves.unique hrc (hcomp.depNames _ rfl)
      obtain ⟨r, hr, c, hrc, hcz⟩ := hp.first (hout u.2.2 (by simp [CUnit.outs])).1 hcomp.depIs hcomp.kinds.2 hz hcz
      rw [globs_append, globs_append, List.mem_append, List.mem_append] at hr
      rcases hr with (hr | hr) | hr
      · have := mem_globs_nostar (by simpa using (hin u.1 (by simp [CUnit.ins])).2) hr
        exact hrest r c (Or.inl (by simpa using this)) hrc hcz
      · exact hrest r c (Or.inr (Or.inl hr)) hrc hcz
      · exact hrest r c (Or.inr (Or.inr (hhd r hr))) hrc hcz
  · exact hrest r c (Or.inr (Or.inl hr)) hrc hcz
  · exact hrest r c (Or.inr (Or.inr (hhd r hr))) hrc hcz

/-- **C97**: the program `x` is up to date, then the source `z` is edited.  A successful build runs the compiler for all
units that use `z` (as source, header, local header, file of `qt_ui` or `qt_moc`, or through `depends`), and the linker if
there is such a unit.  If everything is made in the module itself then the compiler runs for no other unit, in no execution
whatsoever. -/
theorem C97_edit {α : Type} (hE : S.env.Sane) (hp : Program S L M lh tgt opts x F A) {P : Proj α} (hP : L.Is P)
    (hpar : ∀ p q, q ∈ P.parents p → IsAnc q p) {fs0 fs1 : FS α} {cache0 : FileCache}
    {B : Invocation P S.env.canon x fs0 cache0} {clock0 : Nat} {tr : List (Ev α)} {s : St α}
    (hup : ¬ NeedsWork P S.env.canon (fileinfo fs1) x) {z t : Nat} {d : α} (hz : Registered P.reg z)
    (hzk : P.kind z = .source) (ht : ∀ p e, fs1 p = some e → e.mtime < t)
    (hfs0 : fs0 = setFile fs1 (P.path z) ⟨t, some d⟩) (hacc : Accurate P fs0 cache0) (hx : B.Run clock0 tr s)
    {u : CUnit} (hu : u ∈ M.us) {xo : Nat} (hxo : Names S.env L.m u.2.1 xo) :
    (s.Succeeded → UsedBy S L M u z → xo ∈ B.commands tr ∧ x ∈ B.commands tr) ∧
    (SelfContained S L M → xo ∈ B.commands tr → UsedBy S L M u z) := by
  obtain ⟨hreg, hkind, hforce⟩ := hP
  obtain ⟨hS, _⟩ := hp.good.sound hE P hreg hkind hpar
  obtain ⟨xo', y, hc⟩ := hp.units u hu
  have : xo = xo' := Resolves.unique (hxo _ rfl) (hc.objNames _ rfl)
  subst this
  have hroot : Registered P.reg x := by
    rw [hreg]
    rcases hp.named _ rfl with h | ⟨_, h⟩ <;> exact ⟨_, h⟩
  have hkx : P.kind x = .file := by rw [hkind]; exact hp.kind
  obtain ⟨h1, h2⟩ := C36_rebuild_exactly_dependents hS hroot (by rw [hkx]; simp) hup hz hzk ht hfs0 hacc hx
  constructor
  · intro hs hused
    have h3 := hp.uses hE hu hc hused
    have h4 := hp.links hu hc
    rw [← hreg] at h3 h4
    exact ⟨(h2 hs xo).2 ⟨.single h4, by rw [hkind]; exact hc.kinds.1, h3⟩, (h2 hs x).2 ⟨.refl, hkx, .head h4 h3⟩⟩
  · intro hself hcmd
    obtain ⟨_, _, h3⟩ := h1 xo hcmd
    rw [hreg] at h3
    exact hp.only hE hself hu hc (by rw [← hkind]; exact hzk) h3

end Licant.Cxx
