/-
Several programs and libraries in one project: C115.
-/
import Verif.Cxx.Compile

set_option autoImplicit false

namespace Licant.Cxx
open Licant.Py Licant.Core Licant.Make Relation
open Licant.Modules (Val Opts Toolchain Lib IsModule)

/-! ### Specification -/

/-- a call of `application`, `shared_library` or `static_library` (`type`) in the script `script` -/
structure Call where
  script : String
  name : String
  target : Option String
  impl : Option String
  default : Bool
  type : String
  kwargs : Opts

/-- the path of what is linked -/
def Call.tgt (c : Call) : String := c.target.getD c.name

/-- the name of the module that is defined -/
def Call.mod (c : Call) : String := taskModule c.name c.type

/-- the name of the set of its local headers -/
def Call.lh (c : Call) : String := c.mod ++ "__local_headers__"

/-- the call -/
def Call.run (S : Site) (tc : Toolchain) (fuel steps : Nat) (key : Nat → Nat) (c : Call) (lib : Lib) (L : LReg) :
    Except Modules.Err ((Lib × LReg) × Built) :=
  task S tc fuel steps key lib L c.script c.name c.target c.impl c.default c.type c.kwargs

/-- one of the functions that link something, called so that the module found under its name is the one defined by the call -/
def Call.Proper (c : Call) : Prop := (∃ rule, Linked c.type rule) ∧ (c.impl = none ∨ c.default = true)

/-- the final options `loc` of the module that the call `c` defines -/
def Call.Options (S : Site) (tc : Toolchain) (fuel steps : Nat) (key : Nat → Nat) (c : Call) (lib lib' : Lib) (loc : Opts) :
    Prop :=
  ∃ lib1, lib.module c.script c.mod c.impl c.default (taskOpts c.name c.type c.target c.kwargs) = .ok lib1 ∧
    finalOpts tc S.env.home fuel steps key lib1 c.mod none (setDefaults tc []) = .ok (lib', loc)

/-- The calls `cs`, one after the other, all return.  Each finds its place: when it is made, nothing is registered yet for the
files that it makes, and they fit in (`Parts.Fit`). -/
inductive Describe (S : Site) (tc : Toolchain) (fuel steps : Nat) (key : Nat → Nat) :
    Lib → LReg → List Call → Lib → LReg → Prop
  | nil {lib : Lib} {L : LReg} : Describe S tc fuel steps key lib L [] lib L
  | snoc {lib lib1 lib2 : Lib} {L L1 L2 : LReg} {cs : List Call} {c : Call} {loc : Opts} {M : Parts} {F A : List String}
      {b : Built} (before : Describe S tc fuel steps key lib L cs lib1 L1) (proper : c.Proper)
      (options : c.Options S tc fuel steps key lib1 lib2 loc) (parts : PartsOf S loc M)
      (fit : M.Fit S L1.m c.lh c.tgt F A) (returns : c.run S tc fuel steps key lib1 L1 = .ok ((lib2, L2), b)) :
      Describe S tc fuel steps key lib L (cs ++ [c]) lib2 L2

/-- In the registry `L'` the program or library described by the call `c`, made when the modules `lib` were defined, is made
as its options say. -/
def MadeAsDescribed (S : Site) (tc : Toolchain) (fuel steps : Nat) (key : Nat → Nat) (c : Call) (lib : Lib) (L' : LReg) :
    Prop :=
  ∃ lib2 loc M x, c.Options S tc fuel steps key lib lib2 loc ∧ PartsOf S loc M ∧ Names S.env L'.m c.tgt x ∧
    ∀ (T : Settings loc) (bd : String) (uis : List String), text loc "builddir" = .ok bd → texts loc "qt_ui" = .ok uis →
      (∀ i ∈ T.incs ++ T.defs ++ [bd, pjoin bd "ui"], NoSpace i) → Commands S L' c.type c.tgt M T bd uis x

/-! ### What is registered stays -/

variable {S : Site} {tc : Toolchain} {fuel steps : Nat} {key : Nat → Nat}

theorem _root_.Licant.Make.Follows.names {E : Env} {c c' : MReg} (h : Follows E c c') (hw : Wf E.canon c) {p : String} {o : Nat}
    (hn : Names E c p o) (hk : c.kind o ≠ .dir) : Names E c' p o :=
  fun n e => (h.stays hw (hn n e) hk).1

theorem Compiled.frame {L L' : LReg} {opts : CxxOpts} {adddeps : List String} {u : CUnit} {x y : Nat}
    (h : Compiled S L opts adddeps u x y) (hw : Wf S.env.canon L.m) (hf : Frame S L L') :
    Compiled S L' opts adddeps u x y := by
  have hx := hf.follows.2.1 x h.lt.1
  have hy := hf.follows.2.1 y h.lt.2
  have hfx := hf.same x h.lt.1
  have hfy := hf.same y h.lt.2
  refine ⟨hf.follows.names hw h.objNames (by rw [h.kinds.1]; decide), hf.follows.names hw h.depNames (by rw [h.kinds.2]; decide),
    ⟨lt_of_lt_of_le h.lt.1 hf.follows.1, lt_of_lt_of_le h.lt.2 hf.follows.1⟩, by rw [hx.1]; exact h.objIs,
    by rw [hy.1]; exact h.depIs, by rw [hx.2, hy.2]; exact h.kinds, by rw [hfx.2, hfy.2]; exact h.force,
    by rw [hfx.1]; exact h.objCmd, by rw [hfy.1]; exact h.depCmd, ?_⟩
  intro f hf'
  obtain ⟨z, h1, h2, h3, h4⟩ := h.ins f hf'
  obtain ⟨e1, e2, e3⟩ := hf.follows.stays hw h2 (by rcases h3 with h3 | h3 <;> rw [h3] <;> decide)
  exact ⟨z, lt_of_lt_of_le h1 hf.follows.1, e1, by rw [e2]; exact h3, by rw [e3]; exact h4⟩

theorem Assembled.frame {L L' : LReg} {M : Parts} {lh tgt lc : String} {opts : CxxOpts} {x : Nat}
    (h : Assembled S L M lh tgt opts x lc) (hw : Wf S.env.canon L.m) (hf : Frame S L L') :
    Assembled S L' M lh tgt opts x lc where
  named := hf.follows.names hw h.named (by rw [h.kind]; decide)
  kind := by rw [(hf.follows.2.1 x h.lt).2]; exact h.kind
  lt := lt_of_lt_of_le h.lt hf.follows.1
  cmd := by rw [(hf.same x h.lt).1]; exact h.cmd
  units := fun u hu => by
    obtain ⟨xo, y, hc⟩ := h.units u hu
    exact ⟨xo, y, hc.frame hw hf⟩
  headers := fun m hm => ⟨(h.headers m hm).1, (h.headers m hm).2.follow hw hf.follows⟩
  lhStar := h.lhStar
  set := by
    obtain ⟨l, i1, i2, i3⟩ := h.set
    obtain ⟨j1, j2, j3⟩ := hf.follows.stays hw i1 (by rw [i2]; decide)
    exact ⟨l, j1, by rw [j2]; exact i2, by rw [j3]; exact i3⟩

theorem Call.Options.unique {c : Call} {lib lib' lib'' : Lib} {loc loc' : Opts}
    (h : c.Options S tc fuel steps key lib lib' loc) (h' : c.Options S tc fuel steps key lib lib'' loc') :
    lib' = lib'' ∧ loc = loc' := by
  obtain ⟨l1, h1, h2⟩ := h
  obtain ⟨l1', h1', h2'⟩ := h'
  rw [h1] at h1'
  cases h1'
  rw [h2] at h2'
  cases h2'
  exact ⟨rfl, rfl⟩

/-- one call -/
theorem describe_step (hE : S.env.Sane) {lib lib2 : Lib} {L L2 : LReg} {c : Call} {loc : Opts} {M : Parts} {F A : List String}
    {b : Built} (hg : GoodD S.env L.m) (hp : c.Proper) (ho : c.Options S tc fuel steps key lib lib2 loc) (hM : PartsOf S loc M)
    (hF : M.Fit S L.m c.lh c.tgt F A) (h : c.run S tc fuel steps key lib L = .ok ((lib2, L2), b)) :
    GoodD S.env L2.m ∧ Frame S L L2 ∧ ∃ x, b = .target x ∧
      ∀ L', Frame S L2 L' → Names S.env L'.m c.tgt x ∧ L'.m.kind x = .file ∧
        ∀ (T : Settings loc) (bd : String) (uis : List String), text loc "builddir" = .ok bd →
          texts loc "qt_ui" = .ok uis → (∀ i ∈ T.incs ++ T.defs ++ [bd, pjoin bd "ui"], NoSpace i) →
          Commands S L' c.type c.tgt M T bd uis x := by
  obtain ⟨⟨rule, hty⟩, hd⟩ := hp
  obtain ⟨lib1, o, loc', opts, x, L0, L1, R, objs, h0, _, _, h3, h4, h5, h6, _, h8⟩ := task_program hE hty hd hg h
  obtain ⟨_, rfl⟩ := ho.unique ⟨lib1, h0, h3⟩
  obtain ⟨hp, hf, ⟨lc, hl1, hl2⟩, _⟩ := h8 M F A hM hF
  refine ⟨hp.good, hf, x, h4, fun L' hf' => ?_⟩
  have ha := (hp.assembled hl2).frame hp.good.wf hf'
  exact ⟨ha.named, ha.kind, fun T bd uis hbd hu hsp => ha.commands hty hl1 h5 h6 hM T hbd hu hsp⟩

theorem describe_frame (hE : S.env.Sane) {lib lib' : Lib} {L L' : LReg} {cs : List Call}
    (h : Describe S tc fuel steps key lib L cs lib' L') (hg : GoodD S.env L.m) : GoodD S.env L'.m ∧ Frame S L L' := by
  induction h with
  | nil => exact ⟨hg, .refl⟩
  | snoc _ proper options parts fit returns ih =>
    obtain ⟨h1, h2⟩ := ih hg
    obtain ⟨h3, h4, _⟩ := describe_step hE h1 proper options parts fit returns
    exact ⟨h3, h2.trans h4 hg.wf h1.wf⟩

/-- what all calls made remains so -/
theorem describe_all (hE : S.env.Sane) {lib lib' : Lib} {L L' : LReg} {cs : List Call}
    (h : Describe S tc fuel steps key lib L cs lib' L') (hg : GoodD S.env L.m) :
    ∀ pre c post, cs = pre ++ c :: post → ∃ lib1 L1, Describe S tc fuel steps key lib L pre lib1 L1 ∧
      ∃ lib2 loc M x, c.Options S tc fuel steps key lib1 lib2 loc ∧ PartsOf S loc M ∧
        ∀ L'', Frame S L' L'' → Names S.env L''.m c.tgt x ∧ L''.m.kind x = .file ∧
          ∀ (T : Settings loc) (bd : String) (uis : List String), text loc "builddir" = .ok bd →
            texts loc "qt_ui" = .ok uis → (∀ i ∈ T.incs ++ T.defs ++ [bd, pjoin bd "ui"], NoSpace i) →
            Commands S L'' c.type c.tgt M T bd uis x := by
  induction h with
  | nil => intro pre c post e; cases pre <;> cases e
  | @snoc lib1 lib2 L L1 L2 cs d loc M F A b before proper options parts fit returns ih =>
    intro pre c post e
    obtain ⟨h1, h2⟩ := describe_frame hE before hg
    obtain ⟨h3, h4, x, _, h5⟩ := describe_step hE h1 proper options parts fit returns
    rcases List.eq_nil_or_concat post with rfl | ⟨post', d', rfl⟩
    · obtain ⟨e1, e2⟩ := List.append_inj' e rfl
      cases e2
      subst e1
      exact ⟨lib1, L1, before, lib2, loc, M, x, options, parts, h5⟩
    · have e' : cs ++ [d] = (pre ++ c :: post') ++ [d'] := by rw [e]; simp
      obtain ⟨e1, _⟩ := List.append_inj' e' rfl
      obtain ⟨lb, Lb, h6, lib3, loc3, M3, x3, h7, h8, h9⟩ := ih hg pre c post' e1
      exact ⟨lb, Lb, h6, lib3, loc3, M3, x3, h7, h8, fun L'' hf => h9 L'' (h4.trans hf h1.wf h3.wf)⟩

/-! ### C115 -/

/-- **C115** as far as it holds: whatever is described before and after a program or library, it is made as its own options
say: from its own sources, with its own include paths, definitions and flags, and linked from its own objects with its own
libraries.  All of them together form a project that satisfies the assumptions of the theorems about builds.

Missing: each call must find its place; in particular no file may be made by two of them (`C115_violated`). -/
theorem C115_partial (hE : S.env.Sane) {lib lib' : Lib} {L L' : LReg} {cs : List Call}
    (h : Describe S tc fuel steps key lib L cs lib' L') (hg : GoodD S.env L.m) :
    (∀ pre c post, cs = pre ++ c :: post → ∃ lib1 L1, Describe S tc fuel steps key lib L pre lib1 L1 ∧
      MadeAsDescribed S tc fuel steps key c lib1 L') ∧
    ∀ {α : Type} (P : Proj α), L'.Is P → (∀ p q, q ∈ P.parents p → IsAnc q p) →
      Sound P S.env.canon ∧ ∀ c ∈ cs, ∃ x, Names S.env L'.m c.tgt x ∧ Registered P.reg x ∧ P.kind x = .file ∧
        AllRegistered S.env.canon P.reg c.tgt := by
  have hall := describe_all hE h hg
  obtain ⟨hg', _⟩ := describe_frame hE h hg
  refine ⟨fun pre c post e => ?_, fun P hP hpar => ?_⟩
  · obtain ⟨lib1, L1, h1, lib2, loc, M, x, h2, h3, h4⟩ := hall pre c post e
    obtain ⟨h5, _, h6⟩ := h4 L' .refl
    exact ⟨lib1, L1, h1, lib2, loc, M, x, h2, h3, h5, h6⟩
  · obtain ⟨hreg, hkind, _⟩ := hP
    obtain ⟨hS, hr⟩ := hg'.sound hE P hreg hkind hpar
    refine ⟨hS, fun c hc => ?_⟩
    obtain ⟨pre, post, e⟩ := List.append_of_mem hc
    obtain ⟨_, _, _, _, _, _, x, _, _, h4⟩ := hall pre c post e
    obtain ⟨h5, h6, _⟩ := h4 L' .refl
    have hres : Resolves S.env.canon P.reg c.tgt x := by rw [hreg]; exact h5 _ rfl
    refine ⟨x, h5, ?_, by rw [hkind]; exact h6, hr _ _ hres⟩
    rcases hres with h | ⟨_, h⟩
    · exact ⟨_, h⟩
    · exact ⟨_, h⟩

end Licant.Cxx
