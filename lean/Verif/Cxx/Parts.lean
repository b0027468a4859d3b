/-
A module as a collection of files: what `makeObjects` registers, and that the result satisfies the assumptions of the
theorems about builds: C96.
-/
import Verif.Cxx.Sound

set_option autoImplicit false

namespace Licant.Cxx
open Licant.Py Licant.Core Licant.Make Relation
open Licant.Modules (Val Opts Toolchain Lib)

/-! ### Specification -/

/-- The files of a module. -/
structure Parts where
  /-- local headers and their copies -/
  headers : List (String × String)
  /-- files of `qt_ui` and the headers made from them -/
  uis : List (String × String)
  /-- files of `qt_moc` and the sources made from them -/
  mocs : List (String × String)
  /-- sources (including those made from `qt_moc`), object files and dependency files -/
  us : List CUnit
  /-- additional dependencies -/
  depends : List String
  /-- additional objects -/
  extra : List String

/-- the object files of the module -/
def Parts.objects (M : Parts) : List String := M.us.map (·.2.1) ++ M.extra

/-- everything that is made except the final target -/
def Parts.made (M : Parts) : List String :=
  M.headers.map (·.2) ++ M.uis.map (·.2) ++ M.mocs.map (·.2) ++ M.us.flatMap CUnit.outs

/-- what these are made from, except the inputs of the compiler -/
def Parts.raw (M : Parts) : List String := M.headers.map (·.1) ++ M.uis.map (·.1) ++ M.mocs.map (·.1)

/-- `M` are the files of a module with options `loc`. -/
def PartsOf (S : Site) (loc : Opts) (M : Parts) : Prop :=
  ∃ bd pairs depends srcs uis mocs,
    text loc "builddir" = .ok bd ∧
    (given loc "local_headers").iter = .ok pairs ∧
    List.Forall₂ (fun pair (h : String × String) => pathAt pair 1 = .ok h.1 ∧
      ∃ rel, pathAt pair 0 = .ok rel ∧ h.2 = pjoin (pjoin bd "__LOCAL_HEADERS__") rel) pairs M.headers ∧
    texts loc "depends" = .ok depends ∧ M.depends = pathsOf S depends ∧
    texts loc "sources" = .ok srcs ∧ texts loc "qt_ui" = .ok uis ∧ texts loc "qt_moc" = .ok mocs ∧
    M.uis = (pathsOf S uis).zip (buildPathsS (pathsOf S uis) "h" (some "ui_") (pjoin bd "ui")) ∧
    M.mocs = (pathsOf S mocs).zip (buildPathsS (pathsOf S mocs) "h.cxx" none bd) ∧
    M.us = (srcsOf S srcs mocs bd).zip ((objsOf S srcs mocs bd).zip (depsOf S srcs mocs bd)) ∧
    texts loc "objects" = .ok M.extra

/-! ### What `makeObjects` does -/

/-- the registration of the files `M`; `lh` is the name of the set of local headers -/
def registerParts (S : Site) (L : LReg) (lh : String) (M : Parts) (o1 o2 : CxxOpts) : Except Modules.Err LReg := do
  let L ← M.headers.foldlM (fun L m => do
    let L ← addSource S L m.1
    addCopy S L m.1 m.2) L
  let L ← addFileset S L lh (M.headers.map (·.2))
  let add := [lh] ++ M.depends
  let L ← M.uis.foldlM (fun L m => do
    let L ← addSource S L m.1
    addFile S L m.2 ([m.1] ++ add) false fun t => uicCommand m.1 t o1) L
  let add := add ++ M.uis.map (·.2)
  let L ← M.mocs.foldlM (fun L m => do
    let L ← addSource S L m.1
    addFile S L m.2 ([m.1] ++ add) false fun t => mocCommand m.1 t o2) L
  let L ← M.us.foldlM (linkObject S o2 add) L
  M.extra.foldlM (addSource S) L

theorem buildPathsS_length (l : List String) (ext : String) (pre : Option String) (bd : String) :
    (buildPathsS l ext pre bd).length = l.length := by
  simp [buildPathsS, buildPaths]

theorem zip_snd {α β : Type} : ∀ {l : List α} {m : List β}, l.length = m.length → (l.zip m).map (·.2) = m := by
  intro l
  induction l with
  | nil => intro m h; cases m <;> simp_all
  | cons a l ih => intro m h; cases m with
    | nil => simp at h
    | cons b m => simp only [List.zip_cons_cons, List.map_cons]; rw [ih (by simpa using h)]

theorem zip3_mid {α : Type} : ∀ {l m n : List α}, l.length = m.length → m.length = n.length →
    (l.zip (m.zip n)).map (·.2.1) = m := by
  intro l
  induction l with
  | nil => intro m n h1 _; cases m with
    | nil => rfl
    | cons => simp at h1
  | cons a l ih =>
    intro m n h1 h2
    cases m with
    | nil => simp at h1
    | cons b m =>
      cases n with
      | nil => simp at h2
      | cons c n =>
        simp only [List.zip_cons_cons, List.map_cons]
        rw [ih (by simpa using h1) (by simpa using h2)]

theorem localHeaders_parts {S : Site} {bd : String} : ∀ (pairs : List Val) {L L' : LReg} {ts ts' : List String},
    pairs.foldlM (fun (L, ts) pair => do
      let src ← pathAt pair 1
      let L ← addSource S L src
      let rel ← pathAt pair 0
      let tgt := pjoin (pjoin bd "__LOCAL_HEADERS__") rel
      let L ← addCopy S L src tgt
      return (L, ts ++ [tgt])) (L, ts) = .ok (L', ts') →
    ∃ hs : List (String × String), ts' = ts ++ hs.map (·.2) ∧
      List.Forall₂ (fun pair (h : String × String) => pathAt pair 1 = .ok h.1 ∧
        ∃ rel, pathAt pair 0 = .ok rel ∧ h.2 = pjoin (pjoin bd "__LOCAL_HEADERS__") rel) pairs hs ∧
      hs.foldlM (fun L m => do
        let L ← addSource S L m.1
        addCopy S L m.1 m.2) L = .ok L' := by
  intro pairs
  induction pairs with
  | nil =>
    intro L L' ts ts' h
    cases h
    exact ⟨[], by simp, .nil, rfl⟩
  | cons pair pairs ih =>
    intro L L' ts ts' h
    simp only [List.foldlM_cons, bind, Except.bind] at h
    split at h
    · cases h
    · rename_i r hr
      split at hr
      · cases hr
      · rename_i src hsrc
        split at hr
        · cases hr
        · rename_i L1 h1
          split at hr
          · cases hr
          · rename_i rel hrel
            split at hr
            · cases hr
            · rename_i L2 h2
              cases hr
              obtain ⟨hs, e1, e2, e3⟩ := ih h
              refine ⟨(src, pjoin (pjoin bd "__LOCAL_HEADERS__") rel) :: hs, by rw [e1]; simp,
                .cons ⟨hsrc, rel, hrel, rfl⟩ e2, ?_⟩
              simp only [List.foldlM_cons, bind, Except.bind, h1, h2]
              exact e3

/-- licant/cxx_modules.py:209-232: the toolchain of the options -/
theorem cxxOptions_toolchain {home : String → String} {o : Opts} {c : CxxOpts} (h : cxxOptions home o = .ok c) :
    o.get "toolchain" = some (.tool c.toolchain) := by
  unfold cxxOptions at h
  simp only [bind, Except.bind] at h
  iterate 12 (split at h; · cases h)
  split at h
  · rename_i tc htc
    cases h
    exact htc
  · cases h

theorem makeObjects_parts {S : Site} {L L' : LReg} {n : String} {loc R : Opts} {objs : List String}
    (h : makeObjects S L n loc = .ok (L', objs, R)) :
    ∃ M o1 o2, PartsOf S loc M ∧ objs = M.objects ∧ (∀ k, k ≠ "include_paths" → R.get k = loc.get k) ∧
      cxxOptions S.env.home R = .ok o2 ∧ registerParts S L (n ++ "__local_headers__") M o1 o2 = .ok L' ∧
      o1.toolchain = o2.toolchain := by
  obtain ⟨_, _, _, _, _, _, _, _, _, _, _, _, _, hR, _⟩ := makeObjects_ok h
  have hset : ∀ (o : Opts) (v : Val) (k : String), k ≠ "include_paths" → (o.set "include_paths" v).get k = o.get k :=
    fun o v k hk => Dict.get_set_ne _ _ (Ne.symm hk)
  have htexts : ∀ {o o' : Opts} {k : String}, o.get k = o'.get k → texts o k = texts o' k := fun e => by
    unfold texts; rw [e]
  have hhdr : ∀ {bd : String} {pairs : List Val} {loc loc' : Opts}, headerPath bd pairs loc = .ok loc' →
      ∀ k, k ≠ "include_paths" → loc'.get k = loc.get k := by
    intro bd pairs loc loc' h k hk
    unfold headerPath at h
    simp only [bind, Except.bind] at h
    split at h
    · split at h
      · cases h
      · cases h; exact hset _ _ _ hk
    · cases h; rfl
  have hui : ∀ {L L' : LReg} {bd : String} {loc loc' : Opts} {add add' : List String} {o o' : CxxOpts},
      cxxOptions S.env.home loc = .ok o → makeUi S L bd loc add o = .ok (L', loc', add', o') →
      ∃ uis, texts loc "qt_ui" = .ok uis ∧
        add' = add ++ buildPathsS (pathsOf S uis) "h" (some "ui_") (pjoin bd "ui") ∧
        linkUi S L (pathsOf S uis) (buildPathsS (pathsOf S uis) "h" (some "ui_") (pjoin bd "ui")) o add = .ok L' ∧
        cxxOptions S.env.home loc' = .ok o' ∧ ∀ k, k ≠ "include_paths" → loc'.get k = loc.get k := by
    intro L L' bd loc loc' add add' o o' ho h
    unfold makeUi at h
    simp only [bind, Except.bind] at h
    split at h
    · cases h
    · rename_i uis hu
      refine ⟨uis, hu, ?_⟩
      split at h
      · split at h
        · cases h
        · rename_i L1 h1
          split at h
          · cases h
          · split at h
            · cases h
            · rename_i h4
              cases h
              refine ⟨rfl, h1, h4, fun k hk => ?_⟩
              split
              · rfl
              · exact hset _ _ _ hk
      · rename_i hlen
        have : uis = [] := by simpa using hlen
        subst this
        cases h
        refine ⟨by simp [pathsOf, buildPathsS_nil], ?_, ho, fun _ _ => rfl⟩
        simp [pathsOf, linkUi, pure, Except.pure]
  have hmoc : ∀ {L L' : LReg} {bd : String} {loc : Opts} {add srcs objs deps srcs' objs' deps' : List String}
      {o : CxxOpts}, makeMoc S L bd loc add o srcs objs deps = .ok (L', srcs', objs', deps') →
      ∃ mocs, texts loc "qt_moc" = .ok mocs ∧ srcs' = srcs ++ buildPathsS (pathsOf S mocs) "h.cxx" none bd ∧
        objs' = objs ++ buildPathsS (pathsOf S mocs) "h.cxx.o" none bd ∧
        deps' = deps ++ buildPathsS (pathsOf S mocs) "h.cxx.d" none bd ∧
        linkMoc S L (pathsOf S mocs) (buildPathsS (pathsOf S mocs) "h.cxx" none bd) o add = .ok L' := by
    intro L L' bd loc add srcs objs deps srcs' objs' deps' o h
    unfold makeMoc at h
    simp only [bind, Except.bind] at h
    split at h
    · cases h
    · rename_i mocs hm
      refine ⟨mocs, hm, ?_⟩
      split at h
      · split at h
        · cases h
        · rename_i L1 h1
          cases h
          exact ⟨rfl, rfl, rfl, h1⟩
      · rename_i hlen
        have : mocs = [] := by simpa using hlen
        subst this
        cases h
        simp [pathsOf, buildPathsS_nil, linkMoc, pure, Except.pure]
  unfold makeObjects at h
  simp only [bind, Except.bind] at h
  split at h
  · cases h
  · rename_i bd hbd
    split at h
    · cases h
    · rename_i pairs hpairs
      split at h
      · cases h
      · rename_i loc1 h1
        split at h
        · cases h
        · rename_i r2 h2
          obtain ⟨L2, copies⟩ := r2
          split at h
          · cases h
          · rename_i L3 h3
            split at h
            · cases h
            · rename_i depends h4
              split at h
              · cases h
              · rename_i srcs h5
                split at h
                · cases h
                · rename_i o1 h6
                  split at h
                  · cases h
                  · rename_i r7 h7
                    obtain ⟨L7, loc7, add7, o7⟩ := r7
                    simp only at h
                    split at h
                    · cases h
                    · rename_i r8 h8
                      obtain ⟨L8, srcs8, objs8, deps8⟩ := r8
                      simp only at h
                      split at h
                      · cases h
                      · rename_i L9 h9
                        split at h
                        · cases h
                        · rename_i extra h10
                          split at h
                          · cases h
                          · rename_i L11 h11
                            cases h
                            obtain ⟨uis, e1, e2, e3, e4, e5⟩ := hui h6 h7
                            subst e2
                            obtain ⟨mocs, f1, rfl, rfl, rfl, f2⟩ := hmoc h8
                            obtain ⟨hs, g1, g2, g3⟩ := localHeaders_parts pairs h2
                            have e6 := hhdr h1
                            rw [List.nil_append] at g1
                            subst g1
                            refine ⟨⟨hs, (pathsOf S uis).zip (buildPathsS (pathsOf S uis) "h" (some "ui_") (pjoin bd "ui")),
                              (pathsOf S mocs).zip (buildPathsS (pathsOf S mocs) "h.cxx" none bd),
                              (srcsOf S srcs mocs bd).zip ((objsOf S srcs mocs bd).zip (depsOf S srcs mocs bd)),
                              pathsOf S depends, extra⟩, o1, o7,
                              ⟨bd, pairs, depends, srcs, uis, mocs, hbd, hpairs, g2, ?_, rfl, ?_, ?_, ?_, rfl, rfl, rfl, ?_⟩,
                              ?_, hR, e4, ?_, ?_⟩
                            · rw [← h4]; exact (htexts (e6 "depends" (by decide))).symm
                            · rw [← h5]; exact (htexts (e6 "sources" (by decide))).symm
                            · rw [← e1]; exact (htexts (e6 "qt_ui" (by decide))).symm
                            · rw [← f1]
                              exact (htexts ((e5 "qt_moc" (by decide)).trans (e6 "qt_moc" (by decide)))).symm
                            · rw [← h10]
                              exact (htexts ((e5 "objects" (by decide)).trans (e6 "objects" (by decide)))).symm
                            · unfold Parts.objects
                              simp only
                              rw [zip3_mid (by simp [srcsOf, objsOf, buildPathsS_length])
                                (by simp [depsOf, objsOf, buildPathsS_length])]
                              rfl
                            · unfold registerParts
                              simp only [bind, Except.bind] at g3 ⊢
                              simp only [g3, h3]
                              rw [zip_snd (by simp [buildPathsS_length])]
                              unfold linkUi at e3
                              simp only [bind, Except.bind] at e3
                              simp only [e3]
                              unfold linkMoc at f2
                              simp only [bind, Except.bind] at f2
                              simp only [f2]
                              unfold linkObjects at h9
                              unfold srcsOf objsOf depsOf
                              simp only [h9]
                              exact h11
                            · have k1 := cxxOptions_toolchain h6
                              have k2 := cxxOptions_toolchain e4
                              rw [e5 "toolchain" (by decide), k1] at k2
                              simpa using k2

/-! ### The assumptions about the files of a module -/

/-- The module with the files `M` and the final target `tgt` can be registered in `c`, where `F` and `A` are the files of
the project, and `lh` is the name of the set of local headers:
* all files of the module are in `F`, existing additional dependencies in `A`, and there is room for them;
* outputs are different files, not registered yet, and not read before they are made;
* additional dependencies are registered or exist, and are no outputs of the module;
* `lh` is no file of the project. -/
structure Parts.Fit (S : Site) (c : MReg) (M : Parts) (lh tgt : String) (F A : List String) : Prop where
  room : Room S.env c F A
  files : ∀ f ∈ M.raw ++ M.made ++ M.us.flatMap (CUnit.ins S) ++ M.extra ++ [tgt], f ∈ F
  homes : ∀ m ∈ M.headers, S.env.home m.1 = m.1 ∧ S.env.home m.2 = m.2
  outputs : ((M.made ++ [tgt]).map S.env.canon).Nodup
  free : ∀ p ∈ M.made ++ [tgt], Free S.env c p
  raws : ∀ f ∈ M.raw, ∀ p ∈ M.made ++ [tgt], S.env.canon f ≠ S.env.canon p
  ins : ∀ f ∈ M.us.flatMap (CUnit.ins S), ∀ p ∈ M.us.flatMap CUnit.outs ++ [tgt], S.env.canon f ≠ S.env.canon p
  extras : ∀ f ∈ M.extra, S.env.canon f ≠ S.env.canon tgt
  depends : ∀ r ∈ globs S.env M.depends, (∀ p ∈ M.made ++ [tgt], S.env.canon r ≠ S.env.canon p) ∧
    (Leads S.env c r ∨ r ∈ A) ∧ (S.env.ex r = true → r ∈ A)
  set : Free S.env c lh ∧ '*' ∉ lh.toList ∧ S.env.ex lh = false ∧
    ∀ f ∈ F, S.env.canon f ≠ S.env.canon lh ∧ ¬ MissingDir S.env (S.env.canon f) (S.env.canon lh)

theorem nodup_split {α β : Type} {f : α → β} {a b : List α} (h : ((a ++ b).map f).Nodup) :
    (a.map f).Nodup ∧ (b.map f).Nodup ∧ ∀ x ∈ a, ∀ y ∈ b, f x ≠ f y := by
  rw [List.map_append, List.nodup_append] at h
  exact ⟨h.1, h.2.1, fun x hx y hy => h.2.2 _ (List.mem_map_of_mem hx) _ (List.mem_map_of_mem hy)⟩

variable {S : Site} {F A : List String}

/-- what registration of a module gives -/
theorem parts_stage (hE : S.env.Sane) {L L' : LReg} {M : Parts} {lh tgt : String} {o1 o2 : CxxOpts}
    (hg : GoodD S.env L.m) (hM : M.Fit S L.m lh tgt F A) (h : registerParts S L lh M o1 o2 = .ok L') :
    GoodD S.env L'.m ∧ Room S.env L'.m F A ∧ Follows S.env L.m L'.m ∧ Free S.env L'.m tgt ∧
    (∀ p ∈ M.objects, ∃ o, Resolves S.env.canon L'.m.reg p o) ∧
    (∀ u ∈ M.us, ∃ x y, Compiled S L' o2 ([lh] ++ M.depends ++ M.uis.map (·.2)) u x y) ∧
    (∀ m ∈ M.headers, Made S L' [] m) ∧ (∀ m ∈ M.uis, Made S L' ([lh] ++ M.depends) m) ∧
    (∀ m ∈ M.mocs, Made S L' ([lh] ++ M.depends ++ M.uis.map (·.2)) m) ∧
    ∃ l, Resolves S.env.canon L'.m.reg lh l ∧ L'.m.kind l = .fileset ∧
      L'.m.reg.obj l = makeObj lh (globs S.env (M.headers.map (·.2))) := by
  obtain ⟨hlhF, hlhs, hlhx, hlh⟩ := hM.set
  have hr := hM.room
  -- the outputs
  have hmade : M.made ++ [tgt] = M.headers.map (·.2) ++ (M.uis.map (·.2) ++ (M.mocs.map (·.2) ++
      (M.us.flatMap CUnit.outs ++ [tgt]))) := by simp [Parts.made]
  have hout := hM.outputs
  rw [hmade] at hout
  obtain ⟨n1, hout2, d1⟩ := nodup_split hout
  obtain ⟨n2, hout3, d2⟩ := nodup_split hout2
  obtain ⟨n3, hout4, d3⟩ := nodup_split hout3
  obtain ⟨n4, _, d4⟩ := nodup_split hout4
  have mH : ∀ m ∈ M.headers, m.2 ∈ M.made ++ [tgt] := fun m hm => by
    rw [hmade]; exact List.mem_append_left _ (List.mem_map_of_mem hm)
  have mU : ∀ m ∈ M.uis, m.2 ∈ M.made ++ [tgt] := fun m hm => by
    rw [hmade]; exact List.mem_append_right _ (List.mem_append_left _ (List.mem_map_of_mem hm))
  have mM : ∀ m ∈ M.mocs, m.2 ∈ M.made ++ [tgt] := fun m hm => by
    rw [hmade]
    exact List.mem_append_right _ (List.mem_append_right _ (List.mem_append_left _ (List.mem_map_of_mem hm)))
  have mO : ∀ p ∈ M.us.flatMap CUnit.outs ++ [tgt], p ∈ M.made ++ [tgt] := fun p hp => by
    rw [hmade]; exact List.mem_append_right _ (List.mem_append_right _ (List.mem_append_right _ hp))
  have rH : ∀ m ∈ M.headers, m.1 ∈ M.raw := fun m hm => by
    simp only [Parts.raw, List.mem_append, List.mem_map]; exact Or.inl (Or.inl ⟨m, hm, rfl⟩)
  have rU : ∀ m ∈ M.uis, m.1 ∈ M.raw := fun m hm => by
    simp only [Parts.raw, List.mem_append, List.mem_map]; exact Or.inl (Or.inr ⟨m, hm, rfl⟩)
  have rM : ∀ m ∈ M.mocs, m.1 ∈ M.raw := fun m hm => by
    simp only [Parts.raw, List.mem_append, List.mem_map]; exact Or.inr ⟨m, hm, rfl⟩
  have fRaw : ∀ f ∈ M.raw, f ∈ F := fun f hf => hM.files f (by simp [hf])
  have fMade : ∀ p ∈ M.made ++ [tgt], p ∈ F := fun p hp => by
    rcases List.mem_append.1 hp with hp | hp
    · exact hM.files p (by simp [hp])
    · exact hM.files p (by simp only [List.mem_append]; exact Or.inr hp)
  have fIns : ∀ f ∈ M.us.flatMap (CUnit.ins S), f ∈ F := fun f hf =>
    hM.files f (by simp only [List.mem_append]; exact Or.inl (Or.inl (Or.inr hf)))
  have fExtra : ∀ f ∈ M.extra, f ∈ F := fun f hf => hM.files f (by simp [hf])
  have mOu : ∀ u ∈ M.us, ∀ p ∈ CUnit.outs u, p ∈ M.us.flatMap CUnit.outs ++ [tgt] := fun u hu p hp =>
    List.mem_append_left _ (List.mem_flatMap.2 ⟨u, hu, hp⟩)
  -- the additional dependencies
  have hadd1 : ∀ r ∈ globs S.env ([lh] ++ M.depends), r = lh ∨ r ∈ globs S.env M.depends := by
    intro r hr'
    rw [globs_append, List.mem_append] at hr'
    refine hr'.imp (fun h => ?_) id
    have := mem_globs_nostar (by simpa using hlhs) h
    simpa using this
  have hadd2 : ∀ r ∈ globs S.env ([lh] ++ M.depends ++ M.uis.map (·.2)), r ∈ globs S.env ([lh] ++ M.depends) ∨
      ∃ m ∈ M.uis, r = m.2 := by
    intro r hr'
    rw [globs_append, List.mem_append] at hr'
    refine hr'.imp id fun h => ?_
    have := mem_globs_nostar (by
      intro f hf
      obtain ⟨m, hm, rfl⟩ := List.mem_map.1 hf
      exact (hr.nostar _ (fMade _ (mU m hm))).1) h
    obtain ⟨m, hm, e⟩ := List.mem_map.1 this
    exact ⟨m, hm, e.symm⟩
  have there1 : ∀ r ∈ globs S.env ([lh] ++ M.depends), S.env.ex r = true → r ∈ F ++ A := by
    intro r hr' hx
    rcases hadd1 r hr' with rfl | h
    · rw [hlhx] at hx; cases hx
    · simp [(hM.depends r h).2.2 hx]
  have apart1 : ∀ r ∈ globs S.env ([lh] ++ M.depends), ∀ p ∈ M.made ++ [tgt], S.env.canon r ≠ S.env.canon p := by
    intro r hr' p hp
    rcases hadd1 r hr' with rfl | h
    · exact fun e => (hlh p (fMade p hp)).1 e.symm
    · exact (hM.depends r h).1 p hp
  have there2 : ∀ r ∈ globs S.env ([lh] ++ M.depends ++ M.uis.map (·.2)), S.env.ex r = true → r ∈ F ++ A := by
    intro r hr' hx
    rcases hadd2 r hr' with h | ⟨m, hm, rfl⟩
    · exact there1 r h hx
    · simp [fMade _ (mU m hm)]
  have apart2 : ∀ r ∈ globs S.env ([lh] ++ M.depends ++ M.uis.map (·.2)),
      ∀ p ∈ M.mocs.map (·.2) ++ (M.us.flatMap CUnit.outs ++ [tgt]), S.env.canon r ≠ S.env.canon p := by
    intro r hr' p hp
    rcases hadd2 r hr' with h | ⟨m, hm, rfl⟩
    · refine apart1 r h p ?_
      rw [hmade]
      exact List.mem_append_right _ (List.mem_append_right _ hp)
    · exact d2 _ (List.mem_map_of_mem hm) p hp
  unfold registerParts at h
  simp only [bind, Except.bind] at h
  split at h
  · cases h
  · rename_i L1 h1
    split at h
    · cases h
    · rename_i L2 h2
      split at h
      · cases h
      · rename_i L3 h3
        split at h
        · cases h
        · rename_i L4 h4
          split at h
          · cases h
          · rename_i L5 h5
            -- local headers
            obtain ⟨s1, res1⟩ := copies_stage hE M.headers (F := F) (A := A)
              ⟨fun m hm => ⟨fRaw _ (rH m hm), fMade _ (mH m hm)⟩, by (intro r hr'; cases hr'),
                by simpa [List.map_map, Function.comp_def] using n1,
                fun m hm n hn => hM.raws _ (rH m hm) _ (mH n hn), by (intro m hm r hr'; cases hr')⟩
              hM.homes hg hr (fun m hm => hM.free _ (mH m hm)) (by simpa only [bind, Except.bind] using h1)
            have notN1 : ∀ p, (∀ m ∈ M.headers, S.env.canon m.1 ≠ S.env.canon p ∧ S.env.canon m.2 ≠ S.env.canon p) →
                ¬ PairPaths S M.headers [] (S.env.canon p) := by
              rintro p hp (⟨m, hm, e | e⟩ | ⟨r, hr', _⟩)
              · exact (hp m hm).1 e.symm
              · exact (hp m hm).2 e.symm
              · cases hr'
            have free1 : ∀ p ∈ M.uis.map (·.2) ++ (M.mocs.map (·.2) ++ (M.us.flatMap CUnit.outs ++ [tgt])),
                Free S.env L1.m p := by
              intro p hp
              have hp' : p ∈ M.made ++ [tgt] := by rw [hmade]; exact List.mem_append_right _ hp
              exact s1.free p (fMade p hp') (hM.free p hp') (notN1 p fun m hm =>
                ⟨hM.raws _ (rH m hm) p hp', d1 _ (List.mem_map_of_mem hm) p hp⟩)
            have freeLh : Free S.env L1.m lh := s1.keepFree lh (fun f hf => (hlh f hf).2) hlhF (notN1 lh fun m hm =>
              ⟨(hlh _ (fRaw _ (rH m hm))).1, (hlh _ (fMade _ (mH m hm))).1⟩)
            -- the set of local headers
            have hcop : ∀ r ∈ globs S.env (M.headers.map (·.2)), ∃ m ∈ M.headers, r = m.2 := by
              intro r hr'
              have := mem_globs_nostar (by
                intro f hf
                obtain ⟨m, hm, rfl⟩ := List.mem_map.1 hf
                exact (hr.nostar _ (fMade _ (mH m hm))).1) hr'
              obtain ⟨m, hm, e⟩ := List.mem_map.1 this
              exact ⟨m, hm, e.symm⟩
            obtain ⟨s2, resLh, _, _⟩ := addFileset_stage hE s1.good s1.room (fun o ho => freeLh lh o rfl ho)
              (fun f hf => (hlh f hf).1) (fun f hf => (hlh f hf).2) (by
                intro r hr'
                obtain ⟨m, hm, rfl⟩ := hcop r hr'
                exact ⟨fMade _ (mH m hm), (res1 m hm).resolves⟩) h2
            have free2 : ∀ p ∈ M.uis.map (·.2) ++ (M.mocs.map (·.2) ++ (M.us.flatMap CUnit.outs ++ [tgt])),
                Free S.env L2.m p := by
              intro p hp
              have hpF : p ∈ F := fMade p (by rw [hmade]; exact List.mem_append_right _ hp)
              exact s2.free p hpF (free1 p hp) (hlh p hpF).1
            have f02 := s1.follows.trans s2.follows hg.wf s1.good.wf
            have resadd : ∀ r ∈ globs S.env ([lh] ++ M.depends),
                Leads S.env L2.m r ∨ r ∈ A := by
              intro r hr'
              rcases hadd1 r hr' with rfl | h
              · exact Or.inl (resLh.imp fun _ h => ⟨h.1, by rw [h.2.1]; simp⟩)
              · exact (hM.depends r h).2.1.imp (fun h => f02.leads hg.wf h) id
            -- qt_ui
            obtain ⟨s3, res3⟩ := pairs_stage hE (fun m t => uicCommand m.1 t o1) M.uis (F := F) (A := A)
              (adddeps := [lh] ++ M.depends)
              ⟨fun m hm => ⟨fRaw _ (rU m hm), fMade _ (mU m hm)⟩, there1,
                by simpa [List.map_map, Function.comp_def] using n2,
                fun m hm n hn => hM.raws _ (rU m hm) _ (mU n hn), fun m hm r hr' => apart1 r hr' _ (mU m hm)⟩
              s2.good s2.room (fun m hm => free2 _ (List.mem_append_left _ (List.mem_map_of_mem hm))) resadd
              (by simpa only [bind, Except.bind] using h3)
            have free3 : ∀ p ∈ M.mocs.map (·.2) ++ (M.us.flatMap CUnit.outs ++ [tgt]), Free S.env L3.m p := by
              intro p hp
              have hp' : p ∈ M.made ++ [tgt] := by
                rw [hmade]; exact List.mem_append_right _ (List.mem_append_right _ hp)
              refine s3.free p (fMade p hp') (free2 p (List.mem_append_right _ hp)) ?_
              rintro (⟨m, hm, e | e⟩ | ⟨r, hr', _, e⟩)
              · exact hM.raws _ (rU m hm) p hp' e.symm
              · exact d2 _ (List.mem_map_of_mem hm) p hp e.symm
              · exact apart1 r hr' p hp' e.symm
            have resadd2 : ∀ r ∈ globs S.env ([lh] ++ M.depends ++ M.uis.map (·.2)),
                Leads S.env L3.m r ∨ r ∈ A := by
              intro r hr'
              rcases hadd2 r hr' with h | ⟨m, hm, rfl⟩
              · exact (resadd r h).imp (fun h => s3.follows.leads s2.good.wf h) id
              · exact Or.inl (s3.room.leads (fMade _ (mU m hm)) (res3 m hm).resolves)
            -- qt_moc
            obtain ⟨s4, res4⟩ := pairs_stage hE (fun m t => mocCommand m.1 t o2) M.mocs (F := F) (A := A)
              (adddeps := [lh] ++ M.depends ++ M.uis.map (·.2))
              ⟨fun m hm => ⟨fRaw _ (rM m hm), fMade _ (mM m hm)⟩, there2,
                by simpa [List.map_map, Function.comp_def] using n3,
                fun m hm n hn => hM.raws _ (rM m hm) _ (mM n hn),
                fun m hm r hr' => apart2 r hr' _ (List.mem_append_left _ (List.mem_map_of_mem hm))⟩
              s3.good s3.room (fun m hm => free3 _ (List.mem_append_left _ (List.mem_map_of_mem hm))) resadd2
              (by simpa only [bind, Except.bind] using h4)
            have free4 : ∀ p ∈ M.us.flatMap CUnit.outs ++ [tgt], Free S.env L4.m p := by
              intro p hp
              refine s4.free p (fMade p (mO p hp)) (free3 p (List.mem_append_right _ hp)) ?_
              rintro (⟨m, hm, e | e⟩ | ⟨r, hr', _, e⟩)
              · exact hM.raws _ (rM m hm) p (mO p hp) e.symm
              · exact d3 _ (List.mem_map_of_mem hm) p hp e.symm
              · exact apart2 r hr' p (List.mem_append_right _ hp) e.symm
            -- units
            have hB : Batch S M.us ([lh] ++ M.depends ++ M.uis.map (·.2)) F A := by
              refine ⟨?_, there2, n4, ?_, ?_⟩
              · intro u hu f hf
                rcases List.mem_append.1 hf with hf | hf
                · exact fIns f (List.mem_flatMap.2 ⟨u, hu, hf⟩)
                · exact fMade f (mO f (mOu u hu f hf))
              · intro u hu v hv p hp f hf
                exact hM.ins f (List.mem_flatMap.2 ⟨v, hv, hf⟩) p (mOu u hu p hp)
              · intro u hu p hp r hr'
                exact apart2 r hr' p (List.mem_append_right _ (mOu u hu p hp))
            have hfreeU : ∀ u ∈ M.us, ∀ p ∈ CUnit.outs u, Free S.env L4.m p := fun u hu p hp =>
              free4 p (mOu u hu p hp)
            have s5 := linkAll_stage hE M.us hB s4.good s4.room hfreeU
              (fun r hr' => (resadd2 r hr').imp (fun h => s4.follows.leads s3.good.wf h) id) h5
            obtain ⟨_, hcomp⟩ := linkAll_keeps hE M.us s4.good.wf (hB.units hE s4.good s4.room hfreeU) h5
            have free5 : Free S.env L5.m tgt := by
              refine s5.free tgt (fMade tgt (mO tgt (by simp))) (free4 tgt (by simp)) ?_
              rintro (⟨u, hu, f, hf, e⟩ | ⟨r, hr', _, e⟩)
              · rcases List.mem_append.1 hf with hf | hf
                · exact hM.ins f (List.mem_flatMap.2 ⟨u, hu, hf⟩) tgt (by simp) e.symm
                · exact d4 f (List.mem_flatMap.2 ⟨u, hu, hf⟩) tgt (by simp) e.symm
              · exact apart2 r hr' tgt (by simp) e.symm
            -- additional objects
            obtain ⟨s6, res6⟩ := addSources_stage hE (N := fun q => ∃ f ∈ M.extra, q = S.env.canon f) M.extra s5.good
              s5.room (fun f hf => ⟨fExtra f hf, f, hf, rfl⟩) h
            obtain ⟨k6, _⟩ := addSources_keeps hE M.extra (fun f hf => (hr.nostar f (fExtra f hf)).2)
              (fun p hp q hq => s5.room.self (fExtra p hp) (fExtra q hq)) h
            have hcomp6 : ∀ u ∈ M.us, ∃ x y, Compiled S L' o2 ([lh] ++ M.depends ++ M.uis.map (·.2)) u x y := by
              intro u hu
              obtain ⟨x, y, hc⟩ := hcomp u hu
              refine ⟨x, y, hc.keep k6 ?_⟩
              rintro f hf ⟨e, he, hm⟩
              exact s5.room.self (hB.files u hu f hf) (fExtra e he) hm
            have f56 := s5.follows.trans s6.follows s4.good.wf s5.good.wf
            have f46 := s4.follows.trans f56 s3.good.wf s4.good.wf
            have f36 := s3.follows.trans f46 s2.good.wf s3.good.wf
            have f26 := s2.follows.trans f36 s1.good.wf s2.good.wf
            refine ⟨s6.good, s6.room, ?_, s6.free tgt (fMade tgt (mO tgt (by simp))) free5 ?_, ?_, hcomp6,
              fun m hm => (res1 m hm).follow s1.good.wf f26, fun m hm => (res3 m hm).follow s3.good.wf f46,
              fun m hm => (res4 m hm).follow s4.good.wf f56, ?_⟩
            · exact f02.trans f36 hg.wf s2.good.wf
            · rintro ⟨f, hf, e⟩
              exact hM.extras f hf e.symm
            · intro p hp
              rcases List.mem_append.1 hp with hp | hp
              · obtain ⟨u, hu, rfl⟩ := List.mem_map.1 hp
                obtain ⟨x, y, hc⟩ := hcomp6 u hu
                exact ⟨x, hc.objNames _ rfl⟩
              · exact (res6 p hp).imp fun _ h => h.1
            · obtain ⟨l, h1, h2, h3⟩ := resLh
              obtain ⟨e1, e2, e3⟩ := f36.stays s2.good.wf h1 (by rw [h2]; simp)
              exact ⟨l, e1, by rw [e2]; exact h2, by rw [e3]; exact h3⟩

end Licant.Cxx
