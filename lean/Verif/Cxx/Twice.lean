/-
C98 and C99: what holds after a build of a C++ program, and the next build.
-/
import Verif.Cxx.Program

set_option autoImplicit false

namespace Licant.Cxx
open Licant.Py Licant.Core Licant.Make Relation
open Licant.Modules (Val Opts Toolchain Lib IsModule)

variable {S : Site} {L : LReg} {M : Parts} {lh tgt : String} {opts : CxxOpts} {x : Nat} {F A : List String}

/-! ### What the files of a module are made from -/

/-- `Needs S M tgt f g`: the file `f` of the module `M` with the final target `tgt` is made from `g`. -/
inductive Needs (S : Site) (M : Parts) (tgt : String) : String → String → Prop
  /-- the program is made from the objects -/
  | link {g : String} : g ∈ M.objects → Needs S M tgt tgt g
  /-- local headers are copied -/
  | copy {m : String × String} : m ∈ M.headers → Needs S M tgt m.2 m.1
  /-- headers are made from the files of `qt_ui`, after the local headers -/
  | ui {m : String × String} : m ∈ M.uis → Needs S M tgt m.2 m.1
  | uiHeader {m h : String × String} : m ∈ M.uis → h ∈ M.headers → Needs S M tgt m.2 h.2
  /-- sources are made from the files of `qt_moc`, after the local and the generated headers -/
  | moc {m : String × String} : m ∈ M.mocs → Needs S M tgt m.2 m.1
  | mocHeader {m h : String × String} : m ∈ M.mocs → h ∈ M.headers ++ M.uis → Needs S M tgt m.2 h.2
  /-- dependency files are made from the source, the headers listed in the previous dependency file, and the local and
  generated headers -/
  | dep {u : CUnit} {g : String} : u ∈ M.us → g ∈ CUnit.ins S u → Needs S M tgt u.2.2 g
  | depHeader {u : CUnit} {h : String × String} : u ∈ M.us → h ∈ M.headers ++ M.uis → Needs S M tgt u.2.2 h.2
  /-- object files are made from the same and the dependency file -/
  | obj {u : CUnit} {g : String} : u ∈ M.us → g ∈ CUnit.ins S u → Needs S M tgt u.2.1 g
  | objHeader {u : CUnit} {h : String × String} : u ∈ M.us → h ∈ M.headers ++ M.uis → Needs S M tgt u.2.1 h.2
  | objDep {u : CUnit} : u ∈ M.us → Needs S M tgt u.2.1 u.2.2

/-- `q` is needed, directly or not, for the final target; canonical paths -/
def Used (S : Site) (M : Parts) (tgt q : String) : Prop :=
  ReflTransGen (fun p q => ∃ f g, Needs S M tgt f g ∧ p = S.env.canon f ∧ q = S.env.canon g) (S.env.canon tgt) q

theorem Needs.files (hfit : ∀ f ∈ M.raw ++ M.made ++ M.us.flatMap (CUnit.ins S) ++ M.extra ++ [tgt], f ∈ F) {f g : String}
    (h : Needs S M tgt f g) : (f ∈ M.made ∨ f = tgt) ∧ f ∈ F ∧ g ∈ F := by
  have hraw : ∀ m ∈ M.headers ++ M.uis ++ M.mocs, m.1 ∈ F ∧ m.2 ∈ M.made := by
    intro m hm
    have : (m.1 ∈ M.raw) ∧ m.2 ∈ M.made := by
      simp only [List.mem_append] at hm
      simp only [Parts.raw, Parts.made, List.mem_append, List.mem_map]
      rcases hm with (h | h) | h
      · exact ⟨Or.inl (Or.inl ⟨m, h, rfl⟩), Or.inl (Or.inl (Or.inl ⟨m, h, rfl⟩))⟩
      · exact ⟨Or.inl (Or.inr ⟨m, h, rfl⟩), Or.inl (Or.inl (Or.inr ⟨m, h, rfl⟩))⟩
      · exact ⟨Or.inr ⟨m, h, rfl⟩, Or.inl (Or.inr ⟨m, h, rfl⟩)⟩
    exact ⟨hfit _ (by simp [this.1]), this.2⟩
  have hmade : ∀ f ∈ M.made, f ∈ F := fun f hf => hfit f (by simp [hf])
  have hout : ∀ u ∈ M.us, u.2.1 ∈ M.made ∧ u.2.2 ∈ M.made := by
    intro u hu
    simp only [Parts.made, List.mem_append]
    exact ⟨Or.inr (List.mem_flatMap.2 ⟨u, hu, by simp [CUnit.outs]⟩), Or.inr (List.mem_flatMap.2 ⟨u, hu, by simp [CUnit.outs]⟩)⟩
  have hin : ∀ u ∈ M.us, ∀ g ∈ CUnit.ins S u, g ∈ F := fun u hu g hg => hfit g (by
    simp only [List.mem_append]; exact Or.inl (Or.inl (Or.inr (List.mem_flatMap.2 ⟨u, hu, hg⟩))))
  have htgt : tgt ∈ F := hfit _ (by simp)
  cases h with
  | link hg =>
    refine ⟨Or.inr rfl, htgt, ?_⟩
    simp only [Parts.objects, List.mem_append, List.mem_map] at hg
    rcases hg with ⟨u, hu, rfl⟩ | hg
    · exact hmade _ (hout u hu).1
    · exact hfit g (by simp [hg])
  | @copy m hm =>
    have := hraw m (by simp [hm])
    exact ⟨Or.inl this.2, hmade _ this.2, this.1⟩
  | @ui m hm =>
    have := hraw m (by simp [hm])
    exact ⟨Or.inl this.2, hmade _ this.2, this.1⟩
  | @uiHeader m h hm hh =>
    have := hraw m (by simp [hm])
    exact ⟨Or.inl this.2, hmade _ this.2, hmade _ (hraw h (by simp [hh])).2⟩
  | @moc m hm =>
    have := hraw m (by simp [hm])
    exact ⟨Or.inl this.2, hmade _ this.2, this.1⟩
  | @mocHeader m h hm hh =>
    have := hraw m (by simp [hm])
    exact ⟨Or.inl this.2, hmade _ this.2, hmade _ (hraw h (List.mem_append_left _ hh)).2⟩
  | @dep u g hu hg => exact ⟨Or.inl (hout u hu).2, hmade _ (hout u hu).2, hin u hu g hg⟩
  | @depHeader u h hu hh =>
    exact ⟨Or.inl (hout u hu).2, hmade _ (hout u hu).2, hmade _ (hraw h (List.mem_append_left _ hh)).2⟩
  | @obj u g hu hg => exact ⟨Or.inl (hout u hu).1, hmade _ (hout u hu).1, hin u hu g hg⟩
  | @objHeader u h hu hh =>
    exact ⟨Or.inl (hout u hu).1, hmade _ (hout u hu).1, hmade _ (hraw h (List.mem_append_left _ hh)).2⟩
  | @objDep u hu => exact ⟨Or.inl (hout u hu).1, hmade _ (hout u hu).1, hmade _ (hout u hu).2⟩

/-! ### The registry knows -/

/-- `a` depends on `b`, perhaps through a set of files -/
def Direct (S : Site) (L : LReg) (a b : Nat) : Prop :=
  ObjDep S.env.canon L.m.reg a b ∨
    ∃ l, ObjDep S.env.canon L.m.reg a l ∧ L.m.kind l = .fileset ∧ ObjDep S.env.canon L.m.reg l b

/-- a target with the set of local headers and the generated headers among its dependencies depends on these headers -/
theorem Program.headers_dep (hp : Program S L M lh tgt opts x F A) {a : Nat} (h1 : lh ∈ (L.m.reg.obj a).deps)
    {m : String × String} (hm : m ∈ M.headers) : ∃ b, Resolves S.env.canon L.m.reg m.2 b ∧ Direct S L a b := by
  obtain ⟨hr1, hr2, _, _, hs1, hs2⟩ := hp.raw_mem (m := m) (by simp [hm])
  obtain ⟨c, hcr⟩ := (hp.headers m hm).resolves
  obtain ⟨l, hl1, hlk, hl2⟩ := hp.set
  refine ⟨c, hcr, Or.inr ⟨l, ⟨lh, h1, hl1⟩, hlk, m.2, ?_, hcr⟩⟩
  rw [hl2]
  exact mem_globs (List.mem_map_of_mem hm) hs2

theorem Program.adds_dep (hp : Program S L M lh tgt opts x F A) {a : Nat}
    (hd : ∀ r ∈ globs S.env (M.adds lh), r ∈ (L.m.reg.obj a).deps)
    {m : String × String} (hm : m ∈ M.headers ++ M.uis) : ∃ b, Resolves S.env.canon L.m.reg m.2 b ∧ Direct S L a b := by
  rcases List.mem_append.1 hm with hm | hm
  · exact hp.headers_dep (hd lh (mem_globs (by simp [Parts.adds]) hp.lhStar)) hm
  · obtain ⟨hr1, hr2, _, _, hs1, hs2⟩ := hp.raw_mem (m := m) (by simp [hm])
    obtain ⟨c, hcr⟩ := (hp.uis m hm).resolves
    refine ⟨c, hcr, Or.inl ⟨m.2, hd _ (mem_globs ?_ hs2), hcr⟩⟩
    simp only [Parts.adds, List.mem_append]
    exact Or.inr (List.mem_map_of_mem hm)

/-- what a file is made from is a dependency in the registry -/
theorem Program.needs (hp : Program S L M lh tgt opts x F A) {f g : String} (h : Needs S M tgt f g) :
    ∃ a b, Resolves S.env.canon L.m.reg f a ∧ L.m.kind a = .file ∧ Resolves S.env.canon L.m.reg g b ∧
      FileLike (L.m.kind b) ∧ Direct S L a b := by
  obtain ⟨_, hfF, hgF⟩ := h.files hp.fit
  suffices ∃ a b, Resolves S.env.canon L.m.reg f a ∧ L.m.kind a = .file ∧ Resolves S.env.canon L.m.reg g b ∧ Direct S L a b by
    obtain ⟨a, b, h1, h2, h3, h4⟩ := this
    exact ⟨a, b, h1, h2, h3, hp.room.known g hgF b h3, h4⟩
  have hstar : '*' ∉ g.toList := (hp.room.nostar g hgF).1
  have hmade : ∀ (m : String × String) adds, Made S L adds m → '*' ∉ m.1.toList → ∃ a b, Resolves S.env.canon L.m.reg m.2 a ∧
      L.m.kind a = .file ∧ Resolves S.env.canon L.m.reg m.1 b ∧ Direct S L a b := by
    intro m adds hm hs
    obtain ⟨a, b, h1, h2, h3, h4, _⟩ := id hm
    exact ⟨a, b, h1, h2, h4, Or.inl (hm.dep hs h1 h4)⟩
  have hmadds : ∀ (m : String × String) adds, Made S L adds m → ∃ a, Resolves S.env.canon L.m.reg m.2 a ∧
      L.m.kind a = .file ∧ ∀ r ∈ globs S.env adds, r ∈ (L.m.reg.obj a).deps := by
    rintro m adds ⟨a, _, h1, h2, h3, _⟩
    refine ⟨a, h1, h2, fun r hr => ?_⟩
    rw [h3]
    refine List.mem_append_left _ ?_
    rw [globs_append]
    exact List.mem_append_right _ hr
  cases h with
  | @link g hg =>
    obtain ⟨o, ho⟩ := hp.objects g hg
    refine ⟨x, o, hp.named _ rfl, hp.kind, ho, Or.inl ⟨g, ?_, ho⟩⟩
    rw [hp.is]
    exact List.mem_append_left _ (mem_globs hg hstar)
  | @copy m hm => exact hmade m _ (hp.headers m hm) hstar
  | @ui m hm => exact hmade m _ (hp.uis m hm) hstar
  | @uiHeader m h hm hh =>
    obtain ⟨a, h1, h2, h3⟩ := hmadds m _ (hp.uis m hm)
    obtain ⟨b, h4, h5⟩ := hp.headers_dep (h3 lh (mem_globs (by simp) hp.lhStar)) hh
    exact ⟨a, b, h1, h2, h4, h5⟩
  | @moc m hm => exact hmade m _ (hp.mocs m hm) hstar
  | @mocHeader m h hm hh =>
    obtain ⟨a, h1, h2, h3⟩ := hmadds m _ (hp.mocs m hm)
    obtain ⟨b, h4, h5⟩ := hp.adds_dep h3 hh
    exact ⟨a, b, h1, h2, h4, h5⟩
  | @dep u g hu hg =>
    obtain ⟨xo, y, hc⟩ := hp.units u hu
    obtain ⟨z, _, hz, _⟩ := hc.ins g hg
    refine ⟨y, z, hc.depNames _ rfl, hc.kinds.2, hz, Or.inl ⟨g, ?_, hz⟩⟩
    rw [hc.depIs]
    refine List.mem_append_left _ (mem_globs ?_ hstar)
    rcases List.mem_cons.1 hg with rfl | hg
    · simp
    · simp [hg]
  | @depHeader u h hu hh =>
    obtain ⟨xo, y, hc⟩ := hp.units u hu
    obtain ⟨b, h4, h5⟩ := hp.adds_dep (a := y) (by
      intro r hr
      rw [hc.depIs]
      refine List.mem_append_left _ ?_
      rw [globs_append, globs_append]
      exact List.mem_append_left _ (List.mem_append_right _ hr)) hh
    exact ⟨y, b, hc.depNames _ rfl, hc.kinds.2, h4, h5⟩
  | @obj u g hu hg =>
    obtain ⟨xo, y, hc⟩ := hp.units u hu
    obtain ⟨z, _, hz, _⟩ := hc.ins g hg
    refine ⟨xo, z, hc.objNames _ rfl, hc.kinds.1, hz, Or.inl (hc.dep (mem_globs ?_ hstar) hz)⟩
    rcases List.mem_cons.1 hg with rfl | hg
    · simp
    · simp [hg]
  | @objHeader u h hu hh =>
    obtain ⟨xo, y, hc⟩ := hp.units u hu
    obtain ⟨b, h4, h5⟩ := hp.adds_dep (a := xo) (by
      intro r hr
      rw [hc.objIs]
      refine List.mem_append_left _ ?_
      rw [globs_append, globs_append]
      exact List.mem_append_left _ (List.mem_append_right _ hr)) hh
    exact ⟨xo, b, hc.objNames _ rfl, hc.kinds.1, h4, h5⟩
  | @objDep u hu =>
    obtain ⟨xo, y, hc⟩ := hp.units u hu
    exact ⟨xo, y, hc.objNames _ rfl, hc.kinds.1, hc.depNames _ rfl, Or.inl (hc.dep (mem_globs (by simp) hstar) (hc.depNames _ rfl))⟩

theorem Direct.closure {a b : Nat} (h : Direct S L a b) : ReflTransGen (ObjDep S.env.canon L.m.reg) a b := by
  rcases h with h | ⟨l, h1, _, h2⟩
  · exact .single h
  · exact .head h1 (.single h2)

/-- the path of a file -/
theorem Program.path (hE : S.env.Sane) (hp : Program S L M lh tgt opts x F A) {f : String} {a : Nat}
    (ha : Resolves S.env.canon L.m.reg f a) (hk : FileLike (L.m.kind a)) : (L.m.reg.obj a).tgt = S.env.canon f := by
  rw [← hp.good.canonT a (hp.good.wf _ _ ha) (fileLike_ne hk).2.1 (fileLike_ne hk).2.2, ← hp.good.canonEq hE.idem ha]

/-- what is used is in the closure of the final target -/
theorem Program.used (hE : S.env.Sane) (hp : Program S L M lh tgt opts x F A) {q : String} (h : Used S M tgt q) :
    ∃ f b, f ∈ F ∧ q = S.env.canon f ∧ Resolves S.env.canon L.m.reg f b ∧ ReflTransGen (ObjDep S.env.canon L.m.reg) x b := by
  induction h with
  | refl => exact ⟨tgt, x, hp.fit _ (by simp), rfl, hp.named _ rfl, .refl⟩
  | @tail p q _ h ih =>
    obtain ⟨f, g, hn, rfl, rfl⟩ := h
    obtain ⟨f', b', hf', he, hb', hcl⟩ := ih
    obtain ⟨_, hfF, hgF⟩ := hn.files hp.fit
    obtain ⟨a, b, ha, hak, hb, hbk, hd⟩ := hp.needs hn
    have : b' = a := hp.good.same hE.idem hb' ha (fileLike_ne (hp.room.known _ hf' _ hb')).2
      (fileLike_ne (hp.room.known _ hfF _ ha)).2 he.symm
    subst this
    exact ⟨g, b, hgF, rfl, hb, hcl.trans hd.closure⟩

/-- the files that are made: what the registry has for them -/
theorem Program.recipe (hp : Program S L M lh tgt opts x F A) {f : String} (hf : f ∈ M.made ∨ f = tgt) :
    ∃ a deps, Resolves S.env.canon L.m.reg f a ∧ L.m.kind a = .file ∧ L.m.reg.obj a = madeFrom S.env f deps ∧
      (M.depends = [] → ∀ r ∈ globs S.env deps, Needs S M tgt f r ∨ (r = lh ∧ ∀ m ∈ M.headers, Needs S M tgt f m.2)) := by
  have hlist : ∀ l : List String, (∀ f ∈ l, f ∈ F ∨ f = lh) → ∀ r ∈ globs S.env l, r ∈ l := by
    intro l hl r hr
    refine mem_globs_nostar (fun f hf => ?_) hr
    rcases hl f hf with h | rfl
    · exact (hp.room.nostar f h).1
    · exact hp.lhStar
  have hmF : ∀ m ∈ M.headers ++ M.uis ++ M.mocs, m.1 ∈ F ∧ m.2 ∈ F := fun m hm =>
    ⟨(hp.raw_mem hm).2.2.1, (hp.raw_mem hm).2.2.2.1⟩
  have hinF : ∀ u ∈ M.us, ∀ g ∈ CUnit.ins S u, g ∈ F := fun u hu g hg => hp.fit g (by
    simp only [List.mem_append]; exact Or.inl (Or.inl (Or.inr (List.mem_flatMap.2 ⟨u, hu, hg⟩))))
  have houtF : ∀ u ∈ M.us, u.2.1 ∈ F ∧ u.2.2 ∈ F := fun u hu =>
    ⟨((Needs.objDep (S := S) (tgt := tgt) hu).files hp.fit).2.1, ((Needs.objDep (S := S) (tgt := tgt) hu).files hp.fit).2.2⟩
  rcases hf with hf | rfl
  · simp only [Parts.made, List.mem_append, List.mem_map, List.mem_flatMap] at hf
    rcases hf with ((⟨m, hm, rfl⟩ | ⟨m, hm, rfl⟩) | ⟨m, hm, rfl⟩) | ⟨u, hu, hf⟩
    · obtain ⟨a, _, h1, h2, h3, _⟩ := hp.headers m hm
      refine ⟨a, _, h1, h2, h3, fun _ r hr => ?_⟩
      have := hlist _ (by
        intro f hf
        simp only [List.append_nil, List.mem_singleton] at hf
        subst hf
        exact Or.inl (hmF m (by simp [hm])).1) r hr
      simp only [List.append_nil, List.mem_singleton] at this
      subst this
      exact Or.inl (.copy hm)
    · obtain ⟨a, _, h1, h2, h3, _⟩ := hp.uis m hm
      refine ⟨a, _, h1, h2, h3, fun hd r hr => ?_⟩
      rw [hd] at hr
      have := hlist _ (by
        intro f hf
        simp only [List.append_nil, List.mem_append, List.mem_singleton] at hf
        rcases hf with rfl | rfl
        · exact Or.inl (hmF m (by simp [hm])).1
        · exact Or.inr rfl) r hr
      simp only [List.append_nil, List.mem_append, List.mem_singleton] at this
      rcases this with rfl | rfl
      · exact Or.inl (.ui hm)
      · exact Or.inr ⟨rfl, fun h hh => .uiHeader hm hh⟩
    · obtain ⟨a, _, h1, h2, h3, _⟩ := hp.mocs m hm
      refine ⟨a, _, h1, h2, h3, fun hd r hr => ?_⟩
      unfold Parts.adds at hr
      rw [hd] at hr
      have := hlist _ (by
        intro f hf
        simp only [List.append_nil, List.mem_append, List.mem_singleton, List.mem_map] at hf
        rcases hf with rfl | rfl | ⟨n, hn, rfl⟩
        · exact Or.inl (hmF m (by simp [hm])).1
        · exact Or.inr rfl
        · exact Or.inl (hmF n (by simp [hn])).2) r hr
      simp only [List.append_nil, List.mem_append, List.mem_singleton, List.mem_map] at this
      rcases this with rfl | rfl | ⟨n, hn, rfl⟩
      · exact Or.inl (.moc hm)
      · exact Or.inr ⟨rfl, fun h hh => .mocHeader hm (by simp [hh])⟩
      · exact Or.inl (.mocHeader hm (by simp [hn]))
    · obtain ⟨xo, y, hc⟩ := hp.units u hu
      have hdepF : ∀ f ∈ [u.1] ++ ([lh] ++ M.uis.map (·.2)) ++ S.hdrs u.2.2, f ∈ F ∨ f = lh := by
        intro f hf
        simp only [List.mem_append, List.mem_singleton, List.mem_map] at hf
        rcases hf with (rfl | rfl | ⟨n, hn, rfl⟩) | hf
        · exact Or.inl (hinF u hu _ (by simp [CUnit.ins]))
        · exact Or.inr rfl
        · exact Or.inl (hmF n (by simp [hn])).2
        · exact Or.inl (hinF u hu f (by simp [CUnit.ins, hf]))
      simp only [CUnit.outs, List.mem_cons, List.not_mem_nil, or_false] at hf
      rcases hf with rfl | rfl
      · refine ⟨y, _, hc.depNames _ rfl, hc.kinds.2, hc.depIs, fun hd r hr => ?_⟩
        unfold Parts.adds at hr
        rw [hd, List.append_nil] at hr
        have := hlist _ hdepF r hr
        simp only [List.mem_append, List.mem_singleton, List.mem_map] at this
        rcases this with (rfl | rfl | ⟨n, hn, rfl⟩) | hf
        · exact Or.inl (.dep hu (by simp [CUnit.ins]))
        · exact Or.inr ⟨rfl, fun h hh => .depHeader hu (by simp [hh])⟩
        · exact Or.inl (.depHeader hu (by simp [hn]))
        · exact Or.inl (.dep hu (by simp [CUnit.ins, hf]))
      · refine ⟨xo, _, hc.objNames _ rfl, hc.kinds.1, hc.objIs, fun hd r hr => ?_⟩
        unfold Parts.adds at hr
        rw [hd, List.append_nil] at hr
        have := hlist _ (by
          intro f hf
          by_cases hfd : f = u.2.2
          · subst hfd; exact Or.inl (houtF u hu).2
          · refine hdepF f ?_
            simp only [List.mem_append, List.mem_cons, List.not_mem_nil, or_false] at hf ⊢
            rcases hf with ((h | h) | h) | h
            · exact Or.inl (Or.inl h)
            · exact absurd h hfd
            · exact Or.inl (Or.inr h)
            · exact Or.inr h) r hr
        simp only [List.mem_append, List.mem_cons, List.not_mem_nil, or_false, List.mem_map] at this
        rcases this with ((rfl | rfl) | rfl | ⟨n, hn, rfl⟩) | hf
        · exact Or.inl (.obj hu (by simp [CUnit.ins]))
        · exact Or.inl (.objDep hu)
        · exact Or.inr ⟨rfl, fun h hh => .objHeader hu (by simp [hh])⟩
        · exact Or.inl (.objHeader hu (by simp [hn]))
        · exact Or.inl (.obj hu (by simp [CUnit.ins, hf]))
  · refine ⟨x, _, hp.named _ rfl, hp.kind, hp.is, fun _ r hr => Or.inl (.link ?_)⟩
    refine hlist _ (fun g hg => Or.inl ?_) r hr
    exact ((Needs.link (S := S) (tgt := f) hg).files hp.fit).2.2

/-! ### C98 -/

/-- **C98**: after a successful build of a C++ program every made file that is used for it exists, and none of the existing
files it is made from is newer. -/
theorem C98_fresh {α : Type} (hE : S.env.Sane) (hp : Program S L M lh tgt opts x F A) {P : Proj α} (hP : L.Is P)
    (hpar : ∀ p q, q ∈ P.parents p → IsAnc q p) {fs0 : FS α} {cache0 : FileCache}
    {B : Invocation P S.env.canon x fs0 cache0} {clock0 : Nat} {tr : List (Ev α)} {s : St α} (hacc : Accurate P fs0 cache0)
    (ht : ∀ p e, fs0 p = some e → e.mtime ≤ clock0) (hx : B.Run clock0 tr s) (hpr : Productive B tr) (hs : s.Succeeded)
    {f : String} (hf : f ∈ M.made ∨ f = tgt) (hu : Used S M tgt (S.env.canon f)) :
    ∃ e, s.fs (S.env.canon f) = some e ∧
      ∀ g, Needs S M tgt f g → ∀ e', s.fs (S.env.canon g) = some e' → e'.mtime ≤ e.mtime := by
  obtain ⟨hreg, hkind, hforce⟩ := hP
  obtain ⟨hS, _⟩ := hp.good.sound hE P hreg hkind hpar
  have hroot : Registered P.reg x := by
    rw [hreg]
    rcases hp.named _ rfl with h | ⟨_, h⟩ <;> exact ⟨_, h⟩
  have hkx : P.kind x = .file := by rw [hkind]; exact hp.kind
  have hpath : ∀ o, P.path o = (L.m.reg.obj o).tgt := fun o => by rw [← hreg]
  have hfF : f ∈ F := hp.fit f (by
    rcases hf with hf | rfl
    · simp [hf]
    · simp)
  obtain ⟨a, _, ha, hak, _⟩ := hp.recipe hf
  obtain ⟨f', b', hf', he, hb', hcl⟩ := hp.used hE hu
  have : b' = a := hp.good.same hE.idem hb' ha (fileLike_ne (hp.room.known _ hf' _ hb')).2
    (fileLike_ne (hp.room.known _ hfF _ ha)).2 he.symm
  subst this
  rw [← hreg] at hcl
  obtain ⟨e, h1, h2⟩ := C33_fresh hS hroot (by rw [hkx]; simp) hacc ht hx hpr hs b' hcl (by rw [hkind]; exact hak)
  rw [hpath, hp.path hE ha (Or.inl hak)] at h1
  refine ⟨e, h1, fun g hn e' he' => ?_⟩
  obtain ⟨a', b, ha', _, hb, hbk, hd⟩ := hp.needs hn
  cases Resolves.unique ha ha'
  refine h2 b e' ?_ (by rw [hpath, hp.path hE hb hbk]; exact he')
  have hbk' : P.kind b = .file ∨ P.kind b = .source := by rw [hkind]; exact hbk
  unfold Direct at hd
  rw [← hreg, ← hkind] at hd
  rcases hd with hd | ⟨l, h3, h4, h5⟩
  · exact .direct hd hbk'
  · exact .through h3 h4 (.direct h5 hbk')

/-! ### C99 -/

theorem Needs.change {S' : Site} {f g : String} (h : Needs S' M tgt f g) :
    Needs S M tgt f g ∨ ∃ u ∈ M.us, (f = u.2.2 ∨ f = u.2.1) ∧ g ∈ S'.hdrs u.2.2 := by
  have hin : ∀ u : CUnit, ∀ g ∈ CUnit.ins S' u, g ∈ CUnit.ins S u ∨ g ∈ S'.hdrs u.2.2 := by
    intro u g hg
    rcases List.mem_cons.1 hg with rfl | hg
    · exact Or.inl (by simp [CUnit.ins])
    · exact Or.inr hg
  cases h with
  | link h => exact Or.inl (.link h)
  | copy h => exact Or.inl (.copy h)
  | ui h => exact Or.inl (.ui h)
  | uiHeader h h' => exact Or.inl (.uiHeader h h')
  | moc h => exact Or.inl (.moc h)
  | mocHeader h h' => exact Or.inl (.mocHeader h h')
  | @dep u g h h' =>
    rcases hin u g h' with h' | h'
    · exact Or.inl (.dep h h')
    · exact Or.inr ⟨u, h, Or.inl rfl, h'⟩
  | depHeader h h' => exact Or.inl (.depHeader h h')
  | @obj u g h h' =>
    rcases hin u g h' with h' | h'
    · exact Or.inl (.obj h h')
    · exact Or.inr ⟨u, h, Or.inr rfl, h'⟩
  | objHeader h h' => exact Or.inl (.objHeader h h')
  | objDep h => exact Or.inl (.objDep h)

/-- The dependency files as the second process finds them (`S'`), after a build that began with the files `fs0` at time
`clock0` and ended with the files `fs`: a header that is listed in a dependency file was listed there before, or is a local
or generated header of the module, or is a source that existed before and was not changed, and the dependency file is new. -/
def Listed {α : Type} (S S' : Site) (L' : LReg) (M : Parts) (fs0 fs : FS α) (clock0 : Nat) : Prop :=
  ∀ u ∈ M.us, ∀ h ∈ S'.hdrs u.2.2, h ∈ S.hdrs u.2.2 ∨ (∃ m ∈ M.headers ++ M.uis, S.env.canon h = S.env.canon m.2) ∨
    (∀ y, Resolves S'.env.canon L'.m.reg h y → L'.m.kind y = .source) ∧
    (fs0 (S.env.canon h)).isSome ∧ fs (S.env.canon h) = fs0 (S.env.canon h) ∧
    ∃ e, fs (S.env.canon u.2.2) = some e ∧ clock0 ≤ e.mtime

/-- **C99**: a C++ program is built successfully; a second process, which reads the dependency files as they are now, does
nothing, in every execution. -/
theorem C99_second_run {α : Type} {S' : Site} {L' : LReg} {opts' : CxxOpts} {x' : Nat} {F' A' : List String}
    (hE : S.env.Sane) (hp : Program S L M lh tgt opts x F A) {P : Proj α} (hP : L.Is P)
    (hpar : ∀ p q, q ∈ P.parents p → IsAnc q p) {fs0 : FS α} {cache0 : FileCache}
    {B : Invocation P S.env.canon x fs0 cache0} {clock0 : Nat} {tr : List (Ev α)} {s : St α} (hacc : Accurate P fs0 cache0)
    (ht : ∀ p e, fs0 p = some e → e.mtime ≤ clock0) (hx : B.Run clock0 tr s) (hpr : Productive B tr) (hs : s.Succeeded)
    (hE' : S'.env.Sane) (hp' : Program S' L' M lh tgt opts' x' F' A') {P' : Proj α} (hP' : L'.Is P')
    (hpar' : ∀ p q, q ∈ P'.parents p → IsAnc q p) (hcanon : S'.env.canon = S.env.canon)
    (hsees : ∀ p e, s.fs p = some e → S'.env.ex p = true)
    (hself : SelfContained S' L' M) (hextra : ∀ f ∈ M.extra, ∀ y, Resolves S'.env.canon L'.m.reg f y → L'.m.kind y = .source)
    (hlist : Listed S S' L' M fs0 s.fs clock0) (hforce : ∀ o, L'.force o = false)
    (hsrc : ∀ o, Closure S'.env.canon P'.reg x' o → P'.kind o = .source → (s.fs (P'.path o)).isSome)
    {B' : Invocation P' S'.env.canon x' s.fs []} {clock' : Nat} {tr' : List (Ev α)} {s' : St α} (hx' : B'.Run clock' tr' s') :
    B'.updates tr' = [] ∧ B'.commands tr' = [] ∧ s'.fs = s.fs := by
  have h98 := fun {f : String} hf hu => C98_fresh hE hp hP hpar hacc ht hx hpr hs (f := f) hf hu
  obtain ⟨hreg, hkind, hfo⟩ := hP'
  obtain ⟨hS, _⟩ := hp'.good.sound hE' P' hreg hkind hpar'
  have hroot : Registered P'.reg x' := by
    rw [hreg]
    rcases hp'.named _ rfl with h | ⟨_, h⟩ <;> exact ⟨_, h⟩
  have hkx : P'.kind x' = .file := by rw [hkind]; exact hp'.kind
  have hpath : ∀ o, P'.path o = (L'.m.reg.obj o).tgt := fun o => by rw [← hreg]
  -- made files are not sources
  have hns : ∀ f, (f ∈ M.made ∨ f = tgt) → ∀ g y, Resolves S'.env.canon L'.m.reg g y → L'.m.kind y = .source →
      S.env.canon g ≠ S.env.canon f := by
    intro f hf g y hy hk he
    obtain ⟨a, _, ha, hak, _⟩ := hp'.recipe hf
    have : y = a := hp'.good.same hE'.idem hy ha (by rw [hk]; simp) (by rw [hak]; simp) (by rw [hcanon]; exact he)
    subst this
    rw [hk] at hak; cases hak
  -- what the second process uses was used by the first one, except new headers
  have hstep : ∀ f g, Needs S' M tgt f g → Used S M tgt (S.env.canon f) →
      (∃ g', Needs S M tgt f g' ∧ S.env.canon g' = S.env.canon g) ∨ ((∃ y, Resolves S'.env.canon L'.m.reg g y ∧ L'.m.kind y = .source) ∧
        ∀ e e', s.fs (S.env.canon f) = some e → s.fs (S.env.canon g) = some e' → e'.mtime ≤ e.mtime) := by
    intro f g hn hu
    rcases hn.change (S := S) with h | ⟨u, huM, hf, hg⟩
    · exact Or.inl ⟨g, h, rfl⟩
    · rcases hlist u huM g hg with h | ⟨m, hm, he⟩ | ⟨hk, hex, hun, ed, hed, hcl⟩
      · rcases hf with rfl | rfl
        · exact Or.inl ⟨g, .dep huM (by simp [CUnit.ins, h]), rfl⟩
        · exact Or.inl ⟨g, .obj huM (by simp [CUnit.ins, h]), rfl⟩
      · rcases hf with rfl | rfl
        · exact Or.inl ⟨m.2, .depHeader huM hm, he.symm⟩
        · exact Or.inl ⟨m.2, .objHeader huM hm, he.symm⟩
      · obtain ⟨_, _, hc⟩ := hp'.units u huM
        obtain ⟨y, _, hy, _⟩ := hc.ins g (by simp [CUnit.ins, hg])
        refine Or.inr ⟨⟨y, hy, hk y hy⟩, fun e e' he he' => ?_⟩
        rw [hun] at he'
        refine le_trans (ht _ _ he') (le_trans hcl ?_)
        rcases hf with rfl | rfl
        · rw [hed] at he; cases he; exact le_refl _
        · obtain ⟨e2, h1, h2⟩ := h98 (f := u.2.1) (by
            simp only [Parts.made, List.mem_append]
            exact Or.inl (Or.inr (List.mem_flatMap.2 ⟨u, huM, by simp [CUnit.outs]⟩))) hu
          rw [h1] at he; cases he
          exact h2 _ (.objDep huM) _ hed
  have hused : ∀ q, Used S' M tgt q → Used S M tgt q ∨ ∃ g y, q = S.env.canon g ∧ Resolves S'.env.canon L'.m.reg g y ∧
      L'.m.kind y = .source := by
    intro q hq
    induction hq with
    | refl => rw [hcanon]; exact Or.inl .refl
    | @tail p q _ h ih =>
      obtain ⟨f, g, hn, rfl, rfl⟩ := h
      rw [congrFun hcanon f] at ih
      rw [congrFun hcanon g]
      rcases ih with ih | ⟨g', y, he, hy, hk⟩
      · rcases hstep f g hn ih with ⟨g', h1, h2⟩ | ⟨⟨y, hy, hk⟩, _⟩
        · exact Or.inl (ih.tail ⟨f, g', h1, rfl, h2.symm⟩)
        · exact Or.inr ⟨g, y, rfl, hy, hk⟩
      · exact absurd he.symm (hns f (hn.files hp'.fit).1 g' y hy hk)
  have hfile : ∀ f, (f ∈ M.made ∨ f = tgt) → Used S' M tgt (S'.env.canon f) → ∃ e, s.fs (S.env.canon f) = some e ∧
      ∀ g, Needs S' M tgt f g → ∀ e', s.fs (S.env.canon g) = some e' → e'.mtime ≤ e.mtime := by
    intro f hf hu
    have hu1 : Used S M tgt (S.env.canon f) := by
      rcases hused _ hu with h | ⟨g, y, he, hy, hk⟩
      · rwa [hcanon] at h
      · rw [hcanon] at he
        exact absurd he.symm (hns f hf g y hy hk)
    obtain ⟨e, h1, h2⟩ := h98 hf hu1
    refine ⟨e, h1, fun g hn e' he' => ?_⟩
    rcases hstep f g hn hu1 with ⟨g', h3, h4⟩ | ⟨_, h3⟩
    · exact h2 g' h3 e' (by rw [h4]; exact he')
    · exact h3 e e' h1 he'
  -- the closure of the second process
  have hnode : ∀ o, Closure S'.env.canon P'.reg x' o → P'.kind o = .source ∨
      (Resolves S'.env.canon L'.m.reg lh o ∧ ∀ m ∈ M.headers, Used S' M tgt (S'.env.canon m.2)) ∨
      ∃ f, (f ∈ M.made ∨ f = tgt) ∧ Used S' M tgt (S'.env.canon f) ∧ Resolves S'.env.canon L'.m.reg f o := by
    intro o ho
    induction ho with
    | refl => exact Or.inr (Or.inr ⟨tgt, Or.inr rfl, .refl, hp'.named _ rfl⟩)
    | @tail a b hca hab ih =>
      obtain ⟨r, hr, hrb⟩ := hab
      rw [hreg] at hr hrb
      -- a file that is used
      have hgo : ∀ g, Used S' M tgt (S'.env.canon g) → ((g ∈ M.made ∨ g = tgt) ∨
          (∀ y, Resolves S'.env.canon L'.m.reg g y → L'.m.kind y = .source) ∨
          ∃ f, (f ∈ M.made ∨ f = tgt) ∧ S'.env.canon g = S'.env.canon f) → g ∈ F' → Resolves S'.env.canon L'.m.reg g b →
          P'.kind b = .source ∨
          ∃ f, (f ∈ M.made ∨ f = tgt) ∧ Used S' M tgt (S'.env.canon f) ∧ Resolves S'.env.canon L'.m.reg f b := by
        intro g hu hg hgF hb
        rcases hg with hg | hg | ⟨f, hf, he⟩
        · exact Or.inr ⟨g, hg, hu, hb⟩
        · exact Or.inl (by rw [hkind]; exact hg b hb)
        · obtain ⟨c, _, hc, hck, _⟩ := hp'.recipe hf
          have : b = c := hp'.good.same hE'.idem hb hc (fileLike_ne (hp'.room.known _ hgF _ hb)).2 (by rw [hck]; simp) he
          subst this
          exact Or.inr ⟨f, hf, he ▸ hu, hc⟩
      have hsplit : ∀ f g, Needs S' M tgt f g → ((g ∈ M.made ∨ g = tgt) ∨
          (∀ y, Resolves S'.env.canon L'.m.reg g y → L'.m.kind y = .source) ∨
          ∃ f, (f ∈ M.made ∨ f = tgt) ∧ S'.env.canon g = S'.env.canon f) := by
        have hhead : ∀ m ∈ M.headers ++ M.uis ++ M.mocs, m.1 ∈ M.raw ∧ m.2 ∈ M.made := fun m hm =>
          ⟨(hp'.raw_mem hm).1, (hp'.raw_mem hm).2.1⟩
        have hins : ∀ u ∈ M.us, ∀ g ∈ CUnit.ins S' u, (∀ y, Resolves S'.env.canon L'.m.reg g y → L'.m.kind y = .source) ∨
            ∃ f, (f ∈ M.made ∨ f = tgt) ∧ S'.env.canon g = S'.env.canon f := by
          intro u hu g hg
          rcases hself.ins u hu g hg with h | ⟨m, hm, he⟩
          · exact Or.inl h
          · exact Or.inr ⟨m.2, Or.inl (hhead m hm).2, he⟩
        have hout : ∀ u ∈ M.us, u.2.1 ∈ M.made ∧ u.2.2 ∈ M.made := by
          intro u hu
          simp only [Parts.made, List.mem_append]
          exact ⟨Or.inr (List.mem_flatMap.2 ⟨u, hu, by simp [CUnit.outs]⟩),
            Or.inr (List.mem_flatMap.2 ⟨u, hu, by simp [CUnit.outs]⟩)⟩
        intro f g hn
        cases hn with
        | link hg =>
          simp only [Parts.objects, List.mem_append, List.mem_map] at hg
          rcases hg with ⟨u, hu, rfl⟩ | hg
          · exact Or.inl (Or.inl (hout u hu).1)
          · exact Or.inr (Or.inl (hextra g hg))
        | @copy m hm => exact Or.inr (Or.inl (hself.raw _ (hhead m (by simp [hm])).1))
        | @ui m hm => exact Or.inr (Or.inl (hself.raw _ (hhead m (by simp [hm])).1))
        | @uiHeader m h hm hh => exact Or.inl (Or.inl (hhead h (by simp [hh])).2)
        | @moc m hm => exact Or.inr (Or.inl (hself.raw _ (hhead m (by simp [hm])).1))
        | @mocHeader m h hm hh => exact Or.inl (Or.inl (hhead h (List.mem_append_left _ hh)).2)
        | @dep u g hu hg => exact Or.inr (hins u hu g hg)
        | @depHeader u h hu hh => exact Or.inl (Or.inl (hhead h (List.mem_append_left _ hh)).2)
        | @obj u g hu hg => exact Or.inr (hins u hu g hg)
        | @objHeader u h hu hh => exact Or.inl (Or.inl (hhead h (List.mem_append_left _ hh)).2)
        | @objDep u hu => exact Or.inl (Or.inl (hout u hu).2)
      -- an existing path does not depend on directories
      have hdir : ∀ p e, S'.env.canon p = p → s.fs p = some e → S'.env.ex (parent p) = true := by
        intro p e hc h
        rw [← hc]
        exact hE'.exParent p (hsees p e h)
      rcases ih with hks | ⟨hl, hhu⟩ | ⟨f, hf, hu, hfa⟩
      · exfalso
        obtain ⟨e, he⟩ := Option.isSome_iff_exists.1 (hsrc a hca hks)
        rw [hkind] at hks
        rw [hp'.good.plainO a (Or.inl hks)] at hr
        rw [hpath] at he
        have hct := hp'.good.canonT a (hp'.good.old (by rw [hks]; simp)) (by rw [hks]; simp) (by rw [hks]; simp)
        simp [plain, makeObj, hdir _ _ hct he] at hr
      · obtain ⟨l, h1, h2, h3⟩ := hp'.set
        cases Resolves.unique hl h1
        rw [h3] at hr
        have := mem_globs_nostar (by
          intro f hf
          obtain ⟨m, hm, rfl⟩ := List.mem_map.1 hf
          exact (hp'.raw_mem (m := m) (by simp [hm])).2.2.2.2.2) hr
        obtain ⟨m, hm, rfl⟩ := List.mem_map.1 this
        have hm' := hp'.raw_mem (m := m) (by simp [hm])
        exact (hgo m.2 (hhu m hm) (Or.inl (Or.inl hm'.2.1)) hm'.2.2.2.1 hrb).imp id Or.inr
      · obtain ⟨a', deps, h1, h2, h3, h4⟩ := hp'.recipe hf
        cases Resolves.unique hfa h1
        rw [h3] at hr
        rcases List.mem_append.1 hr with hr | hr
        · rcases h4 hself.depends r hr with hn | ⟨rfl, hh⟩
          · refine (hgo r (hu.tail ⟨f, r, hn, rfl, rfl⟩) (hsplit f r hn) (hn.files hp'.fit).2.2 hrb).imp id Or.inr
          · exact Or.inr (Or.inl ⟨hrb, fun m hm => hu.tail ⟨f, m.2, hh m hm, rfl, rfl⟩⟩)
        · exfalso
          obtain ⟨e, he, _⟩ := hfile f hf hu
          rw [← hcanon] at he
          simp [dirDep, hdir _ _ (hE'.idem f) he] at hr
  have hset : ∀ o, Resolves S'.env.canon L'.m.reg lh o → P'.kind o = .fileset ∧
      L'.m.reg.obj o = makeObj lh (globs S'.env (M.headers.map (·.2))) := by
    intro o ho
    obtain ⟨l, h1, h2, h3⟩ := hp'.set
    cases Resolves.unique ho h1
    exact ⟨by rw [hkind]; exact h2, h3⟩
  have hexist : ∀ o, Closure S'.env.canon P'.reg x' o → IsPath P' o → (s.fs (P'.path o)).isSome := by
    intro o ho hko
    rcases hnode o ho with h | ⟨h, _⟩ | ⟨f, hf, hu, hr⟩
    · exact hsrc o ho h
    · rw [IsPath, (hset o h).1] at hko
      rcases hko with h | h | h <;> cases h
    · obtain ⟨a, _, h1, h2, _⟩ := hp'.recipe hf
      cases Resolves.unique hr h1
      obtain ⟨e, he, _⟩ := hfile f hf hu
      rw [hpath, hp'.path hE' hr (Or.inl h2), hcanon, he]
      rfl
  refine idle hS hroot (by rw [hkx]; simp) hexist (not_needsWork hS (by rw [hkx]; simp) ?_ hexist ?_) hx'
  · intro o _
    rw [hfo]
    exact hforce o
  · intro o ho hko
    rcases hnode o ho with h | ⟨h, _⟩ | ⟨f, hf, hu, hr⟩
    · rw [h] at hko; cases hko
    · rw [(hset o h).1] at hko; cases hko
    · obtain ⟨a, deps, h1, h2, h3, h4⟩ := hp'.recipe hf
      cases Resolves.unique hr h1
      obtain ⟨e, he, hfr⟩ := hfile f hf hu
      refine ⟨e, by rw [hpath, hp'.path hE' hr (Or.inl h2), hcanon]; exact he, ?_⟩
      intro z e' hz he'
      have hin : ∀ g, Needs S' M tgt f g → Resolves S'.env.canon L'.m.reg g z → e'.mtime ≤ e.mtime := by
        intro g hn hg
        refine hfr g hn e' ?_
        rw [← hcanon, ← hp'.path hE' hg (hp'.room.known g (hn.files hp'.fit).2.2 z hg), ← hpath]
        exact he'
      have hdeps : ∀ r b, r ∈ (P'.reg.obj o).deps → Resolves S'.env.canon P'.reg r b → P'.kind b = .dir ∨
          Needs S' M tgt f r ∨ (r = lh ∧ ∀ m ∈ M.headers, Needs S' M tgt f m.2) := by
        intro r b hr hrb
        rw [hreg] at hr hrb
        rw [h3] at hr
        rcases List.mem_append.1 hr with hr | hr
        · exact Or.inr (h4 hself.depends r hr)
        · have hfF : f ∈ F' := hp'.fit f (by
            rcases hf with hf | rfl
            · simp [hf]
            · simp)
          exact Or.inl (by rw [hkind]; exact hp'.dirs hfF hr hrb)
      cases hz with
      | direct hd hzk =>
        obtain ⟨r, hr, hrz⟩ := hd
        rcases hdeps r z hr hrz with h | h | ⟨rfl, _⟩
        · rw [h] at hzk; rcases hzk with h | h <;> cases h
        · exact hin r h (by rw [← hreg]; exact hrz)
        · rw [(hset z (by rw [← hreg]; exact hrz)).1] at hzk
          rcases hzk with h | h <;> cases h
      | @through _ l _ hd hlk hlz =>
        obtain ⟨r, hr, hrl⟩ := hd
        rcases hdeps r l hr hrl with h | h | ⟨rfl, hh⟩
        · rw [h] at hlk; cases hlk
        · have := hp'.room.known r (h.files hp'.fit).2.2 l (by rw [← hreg]; exact hrl)
          rw [← hkind, hlk] at this
          rcases this with h | h <;> cases h
        · obtain ⟨_, hobj⟩ := hset l (by rw [← hreg]; exact hrl)
          have hm : ∀ b, ObjDep S'.env.canon P'.reg l b → ∃ m ∈ M.headers, Resolves S'.env.canon L'.m.reg m.2 b := by
            rintro b ⟨r, hr, hrb⟩
            rw [hreg] at hr hrb
            rw [hobj] at hr
            have := mem_globs_nostar (by
              intro f hf
              obtain ⟨m, hm, rfl⟩ := List.mem_map.1 hf
              exact (hp'.raw_mem (m := m) (by simp [hm])).2.2.2.2.2) hr
            obtain ⟨m, hm, rfl⟩ := List.mem_map.1 this
            exact ⟨m, hm, hrb⟩
          cases hlz with
          | direct hd _ =>
            obtain ⟨m, hm, hmz⟩ := hm _ hd
            exact hin m.2 (hh m hm) hmz
          | through hd hk _ =>
            obtain ⟨m, hmm, hmz⟩ := hm _ hd
            have := hp'.room.known m.2 (hp'.raw_mem (m := m) (by simp [hmm])).2.2.2.1 _ hmz
            rw [← hkind, hk] at this
            rcases this with h | h <;> cases h

end Licant.Cxx
