/-
Headers made from Qt forms, and what else is made within a module.  C155.
-/
import Verif.Cxx.Both

set_option autoImplicit false

namespace Licant.Cxx
open Licant.Py Licant.Core Licant.Make Relation Licant.Py.Path
open Licant.Modules (Val Opts Toolchain Lib IsModule)

/-! ### Specification -/

/-- With the command `cmd` the compiler looks for a file included as `name` at the path `file`: this is `name` in one of the
directories given with `-I`. -/
def LooksAt (cmd name file : String) : Prop :=
  ∃ d, "-I" ++ d ∈ words cmd ∧ String.ofList (normpath (join d.toList name.toList)) = file

/-! ### Everything that is made within a module -/

variable {S : Site} {L L' : LReg} {F A : List String}

/-- what is registered for the files of a module stays -/
theorem Parts.Fit.done (hE : S.env.Sane) {M : Parts} {lh tgt : String} {o1 o2 : CxxOpts} {L1 : LReg}
    {cmd : String → Except Modules.Err String} (hM : M.Fit S L.m lh tgt F A) (h : registerParts S L lh M o1 o2 = .ok L1)
    (h' : addFile S L1 tgt M.objects false cmd = .ok L') : ∀ r ∈ M.regs S lh o1 o2, r.Done S L' := by
  have hF : ∀ r ∈ M.regs S lh o1 o2 ++ [Reg.file tgt M.objects false cmd], ∀ p, r.path? = some p → p ∈ F := by
    intro r hr p hp
    refine hM.files p ?_
    rcases List.mem_append.1 hr with hr | hr
    · exact List.mem_append_left _ (regs_paths hr hp)
    · rw [List.mem_singleton] at hr
      subst hr; cases hp; simp
  have hrun : (M.regs S lh o1 o2 ++ [Reg.file tgt M.objects false cmd]).foldlM (Reg.run S) L = .ok L' := by
    rw [List.foldlM_append, ← registerParts_regs hM.homes, h]
    simp only [List.foldlM_cons, List.foldlM_nil, Reg.run, bind_pure]
    simp only [bind, Except.bind]
    exact h'
  have hfine : ∀ r ∈ M.regs S lh o1 o2 ++ [Reg.file tgt M.objects false cmd], r.Fine S := by
    intro r hr
    cases r with
    | src p =>
      have := hF _ hr p rfl
      exact ⟨(hM.room.nostar p this).2, hM.room.self this this⟩
    | file p deps f cmd => exact (hM.room.nostar p (hF _ hr p rfl)).2
    | set n ts => trivial
  have hnames : (M.regs S lh o1 o2 ++ [Reg.file tgt M.objects false cmd]).filterMap Reg.name? =
      M.headers.map (·.2) ++ [lh] ++ M.uis.map (·.2) ++ M.mocs.map (·.2) ++ M.us.flatMap CUnit.outs ++ [tgt] := by
    rw [List.filterMap_append, regs_names]
    rfl
  have hperm : (M.headers.map (·.2) ++ [lh] ++ M.uis.map (·.2) ++ M.mocs.map (·.2) ++ M.us.flatMap CUnit.outs ++ [tgt]).Perm
      (lh :: (M.made ++ [tgt])) := by
    rw [List.perm_iff_count]
    intro x
    unfold Parts.made
    simp only [List.count_cons, List.count_append, List.count_nil]
    omega
  have hmadeF : ∀ p ∈ M.made ++ [tgt], p ∈ F := fun p hp => hM.files p (by
    simp only [List.mem_append] at hp ⊢
    rcases hp with h | h
    · exact Or.inl (Or.inl (Or.inl (Or.inr h)))
    · exact Or.inr h)
  obtain ⟨_, hd⟩ := regs_done hE _ hfine hrun
  refine fun r hr => hd (regs_apart hE ?_ ?_) r (List.mem_append_left _ hr)
  · rw [hnames, (hperm.map _).nodup_iff, List.map_cons, List.nodup_cons]
    refine ⟨fun hm => ?_, hM.outputs⟩
    obtain ⟨p, hp, e⟩ := List.mem_map.1 hm
    exact (hM.set.2.2.2 p (hmadeF p hp)).1 e
  · intro f hf k hk
    rw [hnames] at hk
    obtain ⟨r, hr, hp⟩ := List.mem_filterMap.1 hf
    have hfF := hF r hr f hp
    rcases List.mem_cons.1 (hperm.mem_iff.1 hk) with rfl | hk
    · exact (hM.set.2.2.2 f hfF).2
    · exact hM.room.self (hmadeF k hk) hfF

section
variable {tc : Toolchain} {fuel steps : Nat} {key : Nat → Nat} {lib lib' : Lib}
  {script name type : String} {target impl : Option String} {default : Bool} {kwargs : Opts} {b : Built}

/-- **C110** for what is made before the objects are: the copies of local headers are made with `cp`, the sources of `qt_moc` and
the headers of `qt_ui` with the tools of the module's toolchain, each from its own file. -/
theorem C110_made {rule : String → List String → CxxOpts → Except Modules.Err String} (hE : S.env.Sane)
    (hty : Linked type rule) (hd : impl = none ∨ default = true)
    (h : task S tc fuel steps key lib L script name target impl default type kwargs = .ok ((lib', L'), b)) :
    ∃ lib1 loc,
      lib.module script (taskModule name type) impl default (taskOpts name type target kwargs) = .ok lib1 ∧
      finalOpts tc S.env.home fuel steps key lib1 (taskModule name type) none (setDefaults tc []) = .ok (lib', loc) ∧
      ∀ M F A, PartsOf S loc M → M.Fit S L.m (taskModule name type ++ "__local_headers__") (target.getD name) F A →
      ∀ T : Settings loc,
        (∀ m ∈ M.headers, ∃ x, MadeBy S L' m.2 x [m.1] ("cp " ++ m.1 ++ " " ++ S.env.canon m.2)) ∧
        (∀ m ∈ M.uis, ∃ x c, MadeBy S L' m.2 x ([m.1] ++ ([taskModule name type ++ "__local_headers__"] ++ M.depends)) c ∧
          (Word m.1 → Word (S.env.canon m.2) →
            words c = words (T.toolchain.uic.getD "None") ++ [m.1, ">", S.env.canon m.2])) ∧
        ∀ m ∈ M.mocs, ∃ x c, MadeBy S L' m.2 x ([m.1] ++ M.adds (taskModule name type ++ "__local_headers__")) c ∧
          (Word m.1 → Word (S.env.canon m.2) →
            words c = words (T.toolchain.moc.getD "None") ++ [m.1, ">", S.env.canon m.2]) := by
  obtain ⟨l1, p1, loc, R, M', q1, opts, La, a1, a2, a3, a4, a5, a6, a7, a8, a9, a10, a11⟩ := task_steps hty hd h
  refine ⟨l1, loc, a1, a4, fun M F A hM hF T => ?_⟩
  obtain rfl := hM.unique a7
  have ht : opts.toolchain = T.toolchain := by
    have := cxxOptions_toolchain a6
    rw [a5 _ (by decide), T.h.1] at this
    simpa using this.symm
  have hdone := hF.done hE a8 a9
  unfold Parts.regs at hdone
  simp only [List.mem_append] at hdone
  refine ⟨fun m hm => ?_, fun m hm => ?_, fun m hm => ?_⟩
  · obtain ⟨x, c, y1, y2, _⟩ := hdone (.file m.2 [m.1] false fun t => .ok ("cp " ++ m.1 ++ " " ++ t))
      (Or.inl (Or.inl (Or.inl (Or.inl (Or.inl (List.mem_flatMap.2 ⟨m, hm, by simp⟩))))))
    cases y1
    exact ⟨x, y2⟩
  · obtain ⟨x, c, y1, y2, _⟩ := hdone (.file m.2 ([m.1] ++ ([taskModule name type ++ "__local_headers__"] ++ M.depends)) false
        fun t => uicCommand m.1 t q1) (Or.inl (Or.inl (Or.inl (Or.inr (List.mem_flatMap.2 ⟨m, hm, by simp⟩)))))
    refine ⟨x, c, y2, fun w1 w2 => ?_⟩
    obtain ⟨_, c', k1, k2⟩ := C58_qt q1 w1 w2
    rw [show uicCommand m.1 (S.env.canon m.2) q1 = .ok c from y1] at k1
    cases k1
    rw [k2, a11, ht]
  · obtain ⟨x, c, y1, y2, _⟩ := hdone (.file m.2 ([m.1] ++ M.adds (taskModule name type ++ "__local_headers__")) false
        fun t => mocCommand m.1 t opts) (Or.inl (Or.inl (Or.inr (List.mem_flatMap.2 ⟨m, hm, by simp⟩))))
    refine ⟨x, c, y2, fun w1 w2 => ?_⟩
    obtain ⟨⟨c', k1, k2⟩, _⟩ := C58_qt opts w1 w2
    rw [show mocCommand m.1 (S.env.canon m.2) opts = .ok c from y1] at k1
    cases k1
    rw [k2, ht]

/-! ### C155 -/

theorem mem_zip_buildPaths {ext pre bd : String} : ∀ {l : List String} {m : String × String},
    m ∈ l.zip (buildPathsS l ext (some pre) bd) →
    m.1 ∈ l ∧ m.2 = String.ofList (buildPath ext.toList (some pre.toList) bd.toList m.1.toList)
  | [], m, h => by simp at h
  | a :: l, m, h => by
    have e : buildPathsS (a :: l) ext (some pre) bd =
      String.ofList (buildPath ext.toList (some pre.toList) bd.toList a.toList) :: buildPathsS l ext (some pre) bd := by
      simp [buildPathsS, buildPaths]
    rw [e, List.zip_cons_cons, List.mem_cons] at h
    rcases h with rfl | h
    · exact ⟨by simp, rfl⟩
    · obtain ⟨h1, h2⟩ := mem_zip_buildPaths h
      exact ⟨by simp [h1], h2⟩

/-- where the header of a form is, if the form is in the working directory -/
theorem form_header {ui stem e : String} (hs : '/' ∉ stem.toList ∧ ∃ c ∈ stem.toList, c ≠ '.') (he : '/' ∉ e.toList ∧ '.' ∉ e.toList)
    (htwo : ¬ TwoDots ("ui_" ++ stem ++ ".h").toList) :
    buildPath "h".toList (some "ui_".toList) ui.toList (stem ++ "." ++ e).toList =
      normpath (join ui.toList ("ui_" ++ stem ++ ".h").toList) := by
  have hext : GoodExt "h".toList := ⟨by decide, [], 'h', rfl, by decide⟩
  have ename : ("ui_" ++ stem ++ ".h").toList = "ui_".toList ++ stem.toList ++ '.' :: "h".toList := by
    simp [String.toList_append]
  rw [ename] at htwo ⊢
  obtain ⟨k, _⟩ := C55_name hext (ds := []) (by simp) hs he (pre := "ui_".toList) (by decide) htwo ui.toList
  have e1 : (stem ++ "." ++ e).toList = ['/'].intercalate ([] ++ [stem.toList ++ '.' :: e.toList]) := by
    simp [String.toList_append]
  rw [e1, k]
  have hno : '/' ∉ "ui_".toList ++ stem.toList ++ '.' :: "h".toList := by
    simp only [List.mem_append, not_or]
    exact ⟨⟨by decide, hs.1⟩, by decide⟩
  obtain ⟨cs, _, _, c1, c2⟩ := normpath_join (b := ui.toList) (r := "ui_".toList ++ stem.toList ++ '.' :: "h".toList) (x := 'h')
    (by simp) htwo (by
      rw [show "ui_".toList ++ stem.toList ++ '.' :: "h".toList = ("ui_".toList ++ stem.toList ++ ['.']) ++ ['h'] by simp]
      exact List.getLast?_concat) (by decide)
  have hc := comps_intercalate (cs := ["ui_".toList ++ stem.toList ++ '.' :: "h".toList]) (by simp)
    (by intro c hc; rw [List.mem_singleton] at hc; rw [hc]; exact hno)
  rw [show ['/'].intercalate ["ui_".toList ++ stem.toList ++ '.' :: "h".toList] =
    "ui_".toList ++ stem.toList ++ '.' :: "h".toList by simp] at hc
  rw [hc] at c1
  rw [c2, c1]
  rw [List.nil_append, List.filter_eq_self.2]
  intro c hc
  rw [List.mem_singleton] at hc
  subst hc
  simp

/-- **C155**, what holds: a form `NAME.ui` in the working directory of a program or library.  Every source of the module is
compiled after `uic` has made a header of the form, and wherever the source includes `ui_NAME.h`, this header is a file that the
compiler looks at.  (An earlier include directory may have a file of this name, too.) -/
theorem C155_partial {rule : String → List String → CxxOpts → Except Modules.Err String} (hE : S.env.Sane)
    (hty : Linked type rule) (hd : impl = none ∨ default = true) (hg : GoodD S.env L.m)
    (h : task S tc fuel steps key lib L script name target impl default type kwargs = .ok ((lib', L'), b)) :
    ∃ lib1 loc,
      lib.module script (taskModule name type) impl default (taskOpts name type target kwargs) = .ok lib1 ∧
      finalOpts tc S.env.home fuel steps key lib1 (taskModule name type) none (setDefaults tc []) = .ok (lib', loc) ∧
      ∀ M F A, PartsOf S loc M → M.Fit S L.m (taskModule name type ++ "__local_headers__") (target.getD name) F A →
      ∀ (T : Settings loc) (bd : String) (uis : List String), text loc "builddir" = .ok bd → texts loc "qt_ui" = .ok uis →
        (∀ i ∈ T.incs ++ T.defs ++ [bd, pjoin bd "ui"], NoSpace i) →
        ∀ stem e : String, '/' ∉ stem.toList → (∃ c ∈ stem.toList, c ≠ '.') → '/' ∉ e.toList → '.' ∉ e.toList →
        ¬ TwoDots ("ui_" ++ stem ++ ".h").toList → stem ++ "." ++ e ∈ pathsOf S uis →
        ∃ hdr x c, MadeBy S L' hdr x ([stem ++ "." ++ e] ++ ([taskModule name type ++ "__local_headers__"] ++ M.depends)) c ∧
          (Word (stem ++ "." ++ e) → Word (S.env.canon hdr) →
            words c = words (T.toolchain.uic.getD "None") ++ [stem ++ "." ++ e, ">", S.env.canon hdr]) ∧
          ∀ u ∈ M.us, Word u.1 → Word (S.env.canon u.2.1) → Word (S.env.canon u.2.2) → CxxSource u.1 none ∨ CSource u.1 none →
            ∃ xo y, Names S.env L'.m u.2.1 xo ∧ Names S.env L'.m u.2.2 y ∧
              ObjDep S.env.canon L'.m.reg xo x ∧ ObjDep S.env.canon L'.m.reg y x ∧
              (∃ cmd, L'.cmd xo = some cmd ∧ LooksAt cmd ("ui_" ++ stem ++ ".h") hdr) ∧
              ∃ cmd, L'.cmd y = some cmd ∧ LooksAt cmd ("ui_" ++ stem ++ ".h") hdr := by
  obtain ⟨lib1, loc, h0, h3, hmade⟩ := C110_made hE hty hd h
  obtain ⟨lib2, o, loc2, opts, x, L0, L1, R, objs, g0, g1, g2, g3, g4, g5, g6, _, g8⟩ := task_program hE hty hd hg h
  rw [h0] at g0
  cases g0
  rw [h3] at g3
  cases g3
  refine ⟨lib1, loc, h0, h3, fun M F A hM hF T bd uis hbd hu hsp stem e s1 s2 e1 e2 htwo hin => ?_⟩
  obtain ⟨hp, _, ⟨lc, hl1, hl2⟩, _⟩ := g8 M F A hM hF
  have hcmds := (hp.assembled hl2).commands hty hl1 g5 g6 hM T hbd hu hsp
  obtain ⟨_, hui, _⟩ := hmade M F A hM hF T
  -- the pair of the form and its header
  have hpair : ∃ m ∈ M.uis, m.1 = stem ++ "." ++ e ∧
      m.2 = String.ofList (normpath (join (pjoin bd "ui").toList ("ui_" ++ stem ++ ".h").toList)) := by
    obtain ⟨bd', pairs, depends, srcs, uis', mocs, m1, m2, m3, m4, m5, m6, m7, m8, m9, m10, m11, m12⟩ := hM
    rw [hbd] at m1
    cases m1
    rw [hu] at m7
    cases m7
    obtain ⟨i, hi, hie⟩ := List.getElem_of_mem hin
    have hl : i < (buildPathsS (pathsOf S uis) "h" (some "ui_") (pjoin bd "ui")).length := by
      rw [buildPathsS_length]; exact hi
    have hm : (stem ++ "." ++ e, (buildPathsS (pathsOf S uis) "h" (some "ui_") (pjoin bd "ui"))[i]) ∈ M.uis := by
      rw [m9, ← hie]
      have := List.getElem_mem (l := (pathsOf S uis).zip (buildPathsS (pathsOf S uis) "h" (some "ui_") (pjoin bd "ui"))) (n := i)
        (by rw [List.length_zip]; omega)
      rwa [List.getElem_zip] at this
    refine ⟨_, hm, rfl, ?_⟩
    rw [m9] at hm
    obtain ⟨_, k⟩ := mem_zip_buildPaths hm
    rw [k, form_header ⟨s1, s2⟩ ⟨e1, e2⟩ htwo]
  obtain ⟨m, hm, rfl', hm2⟩ := hpair
  obtain ⟨x1, c, k1, k2⟩ := hui m hm
  rw [rfl'] at k1 k2
  refine ⟨m.2, x1, c, k1, k2, fun u hu' w1 w2 w3 hsrc => ?_⟩
  have hne : uis ≠ [] := by
    rintro rfl
    simp [pathsOf] at hin
  have hinc : pjoin bd "ui" ∈ incPaths bd T.incs (M.headers ≠ []) (uis ≠ []) := by
    unfold incPaths
    by_cases hc : pjoin bd "ui" ∈ T.incs ++ if M.headers ≠ [] then [bd ++ "/__LOCAL_HEADERS__/"] else []
    · exact List.mem_append_left _ hc
    · refine List.mem_append_right _ ?_
      rw [if_pos ⟨hne, hc⟩]
      simp
  obtain ⟨xo, y, n1, n2, _, hc⟩ := hcmds.1 u hu' w1 w2 w3
  obtain ⟨xo', y', hcomp⟩ := hp.units u hu'
  obtain ⟨_, _, _, _, _, hstar⟩ := hp.raw_mem (m := m) (by simp [hm])
  have hres : Resolves S.env.canon L'.m.reg m.2 x1 := by
    obtain ⟨z, _, z1, _, z3, _⟩ := hp.uis m hm
    have hself : L'.m.reg.targets.get (L'.m.reg.obj z).tgt = some z := by
      rcases z1 with z1 | ⟨_, z1⟩
      · exact hp.good.self _ _ z1
      · exact hp.good.self _ _ z1
    rw [z3] at hself
    have : z = x1 := Resolves.unique (Or.inl hself) k1.leads
    rwa [this] at z1
  have hxo : xo' = xo := (hcomp.objNames _ rfl).unique (n1 _ rfl)
  have hy : y' = y := (hcomp.depNames _ rfl).unique (n2 _ rfl)
  subst hxo hy
  have hmem : m.2 ∈ M.adds (taskModule name type ++ "__local_headers__") := by
    unfold Parts.adds; exact List.mem_append_right _ (List.mem_map_of_mem hm)
  have hlook : ∀ cmd : String, "-I" ++ pjoin bd "ui" ∈ words cmd → LooksAt cmd ("ui_" ++ stem ++ ".h") m.2 :=
    fun cmd hc => ⟨_, hc, hm2.symm⟩
  have hw : "-I" ++ pjoin bd "ui" ∈ (incPaths bd T.incs (M.headers ≠ []) (uis ≠ [])).map ("-I" ++ ·) :=
    List.mem_map_of_mem hinc
  have hboth : ∃ drv std flags : String,
      CxxSource u.1 none ∧ drv = T.toolchain.cxx ∧ std = T.cxxstd ∧ flags = T.cxxFlags ∨
        CSource u.1 none ∧ drv = T.toolchain.cc ∧ std = T.ccstd ∧ flags = T.ccFlags := by
    rcases hsrc with hs | hs
    · exact ⟨_, _, _, Or.inl ⟨hs, rfl, rfl, rfl⟩⟩
    · exact ⟨_, _, _, Or.inr ⟨hs, rfl, rfl, rfl⟩⟩
  obtain ⟨drv, std, flags, hb⟩ := hboth
  obtain ⟨⟨cmd, q1, q2⟩, cmd', q3, q4⟩ := hc drv std flags hb
  refine ⟨xo', y', n1, n2, hcomp.dep (mem_globs (by simp [hmem]) hstar) hres,
    ⟨m.2, ?_, hres⟩, ⟨cmd, q1, hlook cmd ?_⟩, cmd', q3, hlook cmd' ?_⟩
  · rw [hcomp.depIs]
    exact List.mem_append_left _ (mem_globs (by simp [hmem]) hstar)
  · rw [q2]
    simp only [List.mem_append, hw, true_or, or_true]
  · rw [q4]
    simp only [List.mem_append, hw, true_or, or_true]

end

end Licant.Cxx
