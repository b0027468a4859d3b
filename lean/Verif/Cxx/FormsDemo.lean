/-
A form in the working directory, and one in a directory.  C155.
-/
import Verif.Cxx.Forms

set_option autoImplicit false

namespace Licant.Cxx
open Licant.Py Licant.Core Licant.Make Relation
open Licant.Modules (Val Opts Toolchain Lib IsModule)

/-! ### `application("app", target="app", sources=["a.cpp"], builddir="b", qt_ui=[form])` in the script `l.py` -/

/-- the working directory -/
def formSite (form : String) : Site where
  env := listEnv [".", "/", "//", "f", "a.cpp", form]
  lim := 50
  uni := fun _ => false
  file := fun _ => none

def formKw (form : String) : Opts :=
  [("sources", .list [.str "a.cpp"]), ("builddir", .str "b"), ("qt_ui", .list [.str form])]

def formLib (form : String) : Lib :=
  match Lib.empty.module "l.py" "app__module" none false (taskOpts "app" "application" (some "app") (formKw form)) with
  | .ok l => l
  | .error _ => Lib.empty

def formR (form : String) : Opts :=
  match merge stdTools id .merge (setDefaults stdTools []) ((formLib form).obj 0).opts with
  | .ok r => r
  | .error _ => []

theorem form_collect (form : String) : Modules.collect 10 10 (formLib form) (fun _ => 0) 0 = .ok (formLib form, []) := by
  have h : (((formLib form).obj 0).opts.has "mdepends") = false := rfl
  unfold Modules.collect Modules.collectIf
  simp [h, Modules.collectLoop, bind, Except.bind, pure, Except.pure]

theorem form_opts1 : finalOpts stdTools id 10 10 (fun _ => 0) (formLib "win.ui") "app__module" none (setDefaults stdTools []) =
    .ok (formLib "win.ui", formR "win.ui") :=
  finalOpts_of (L1 := formLib "win.ui") rfl rfl rfl rfl rfl rfl (form_collect _) rfl

theorem form_opts2 : finalOpts stdTools id 10 10 (fun _ => 0) (formLib "f/win.ui") "app__module" none (setDefaults stdTools []) =
    .ok (formLib "f/win.ui", formR "f/win.ui") :=
  finalOpts_of (L1 := formLib "f/win.ui") rfl rfl rfl rfl rfl rfl (form_collect _) rfl

/-- what holds of the registry after `modmake` holds of that after the call -/
theorem form_task {form : String} {Q : LReg → Prop} (h : ∃ a c d e,
    modmake (formSite form) stdTools 10 10 (fun _ => 0) 50 (formLib form, demoReg) "app__module" none (setDefaults stdTools []) =
      .ok ((a, c), d, e) ∧ Q c) :
    ∃ a c d, task (formSite form) stdTools 10 10 (fun _ => 0) Lib.empty demoReg "l.py" "app" (some "app") none false "application"
      (formKw form) = .ok ((a, c), d) ∧ Q c := by
  obtain ⟨a, c, d, e, h2, hQ⟩ := h
  refine ⟨a, c, d, ?_, hQ⟩
  have h1 : Lib.empty.module "l.py" "app__module" none false (taskOpts "app" "application" (some "app") (formKw form)) =
    .ok (formLib form) := rfl
  unfold task prepareTargets
  have h3 : mkOptions stdTools [] = .ok [] := rfl
  have h4 : ([("type", Val.str "application"), ("target", .str ((some "app").getD "app"))] ++ formKw form : Opts) =
    taskOpts "app" "application" (some "app") (formKw form) := rfl
  have h5 : (formSite form).lim = 50 := rfl
  have h6 : "app" ++ "__module" = "app__module" := by decide
  rw [if_pos (by decide)]
  simp only [h4, h6, h1, h3, h5, h2, bind, Except.bind]
  rfl

/-- a test of the result -/
def resultIs {α β γ δ ε : Type} (Q : β → Bool) : Except ε ((α × β) × γ × δ) → Bool
  | .ok ((_, c), _, _) => Q c
  | .error _ => false

theorem resultIs_iff {α β γ δ ε : Type} {Q : β → Bool} {r : Except ε ((α × β) × γ × δ)} :
    resultIs Q r = true ↔ ∃ a c d e, r = .ok ((a, c), d, e) ∧ Q c = true := by
  rcases r with e | ⟨⟨a, c⟩, d, e⟩
  · simp [resultIs]
  · simp [resultIs]

/-! ### A form in the working directory -/

theorem formDemo_task : ∃ r, task (formSite "win.ui") stdTools 10 10 (fun _ => 0) Lib.empty demoReg "l.py" "app" (some "app") none
    false "application" (formKw "win.ui") = .ok r := by
  obtain ⟨a, c, d, h, _⟩ := form_task (form := "win.ui") (Q := fun L => (fun _ => true : LReg → Bool) L = true) (by
    refine (resultIs_iff (Q := (fun _ => true : LReg → Bool))).1 ?_
    rw [modmake]
    have : (formSite "win.ui").env.home = id := rfl
    simp only [this, form_opts1, bind, Except.bind]
    decide +kernel)
  exact ⟨_, h⟩

/-- its files -/
def formParts : Parts where
  headers := []
  uis := [("win.ui", "b/ui/ui_win.h")]
  mocs := []
  us := [("a.cpp", "b/a.o", "b/a.d")]
  depends := []
  extra := []

def formFiles : List String := ["win.ui", "b/ui/ui_win.h", "a.cpp", "b/a.o", "b/a.d", "app"]

theorem formParts_of : PartsOf (formSite "win.ui") (formR "win.ui") formParts := by
  refine ⟨"b", [], [], ["a.cpp"], ["win.ui"], [], rfl, rfl, .nil, rfl, rfl, rfl, rfl, rfl, ?_, ?_, ?_, rfl⟩ <;> decide +kernel

theorem formParts_fit : formParts.Fit (formSite "win.ui") licantReg "app__module__local_headers__" "app" formFiles [] where
  room := room_licant (fun _ => rfl) ["b/ui", "b", "."] (by decide +kernel)
    (by decide +kernel) (by decide +kernel) (by decide +kernel) (by decide) (by decide +kernel)
  files := by decide +kernel
  homes := fun _ _ => ⟨rfl, rfl⟩
  outputs := by decide +kernel
  free := fun p hp => licant_free (fun _ => rfl) (by revert p; decide +kernel)
  raws := by decide +kernel
  ins := by decide +kernel
  extras := by intro f hf; cases hf
  depends := by intro f hf; cases hf
  set := by
    refine ⟨licant_free (fun _ => rfl) (by decide +kernel), by decide +kernel, by decide +kernel, fun f hf => ⟨?_, ?_⟩⟩
    · show f ≠ _
      revert f
      decide +kernel
    · have hp : parent f ∈ ["b/ui", "b", "."] := by revert f; decide +kernel
      rintro ⟨i, _, h⟩
      have := anc_mem (A := ["b/ui", "b", "."]) (p := f) (by decide +kernel) hp i
      change _ = anc f i at h
      rw [← h] at this
      revert this
      decide +kernel

def formT : Settings (formR "win.ui") where
  toolchain := stdTools
  cxxstd := "c++17"
  ccstd := "c11"
  debug := "-g"
  optimize := ""
  cxxFlags := ""
  ccFlags := ""
  ldFlags := ""
  incs := []
  defs := []
  libdirs := []
  libs := []
  scripts := []
  h := ⟨rfl, rfl, rfl, rfl, rfl, rfl, rfl, rfl, rfl, rfl, rfl, rfl, rfl⟩

/-- the hypotheses of C155 and of C110 hold -/
example : (formSite "win.ui").env.Sane ∧ Linked "application" executableCommand ∧ GoodD (formSite "win.ui").env demoReg.m ∧
    (∃ r, task (formSite "win.ui") stdTools 10 10 (fun _ => 0) Lib.empty demoReg "l.py" "app" (some "app") none false "application"
      (formKw "win.ui") = .ok r) ∧
    finalOpts stdTools id 10 10 (fun _ => 0) (formLib "win.ui") (taskModule "app" "application") none (setDefaults stdTools []) =
      .ok (formLib "win.ui", formR "win.ui") ∧ PartsOf (formSite "win.ui") (formR "win.ui") formParts ∧
    formParts.Fit (formSite "win.ui") demoReg.m (taskModule "app" "application" ++ "__local_headers__") "app" formFiles [] ∧
    Nonempty (Settings (formR "win.ui")) ∧ text (formR "win.ui") "builddir" = .ok "b" ∧
    texts (formR "win.ui") "qt_ui" = .ok ["win.ui"] ∧
    (∀ i ∈ formT.incs ++ formT.defs ++ ["b", pjoin "b" "ui"], NoSpace i) ∧
    '/' ∉ "win".toList ∧ (∃ c ∈ "win".toList, c ≠ '.') ∧ '/' ∉ "ui".toList ∧ '.' ∉ "ui".toList ∧
    ¬ TwoDots ("ui_" ++ "win" ++ ".h").toList ∧ "win" ++ "." ++ "ui" ∈ pathsOf (formSite "win.ui") ["win.ui"] ∧
    CxxSource "a.cpp" none ∧ (∀ w ∈ ["a.cpp", "b/a.o", "b/a.d", "win.ui", "b/ui/ui_win.h"], Word w) :=
  ⟨listEnv_sane (by decide +kernel) (by decide +kernel), .application, goodD_licantReg, formDemo_task, form_opts1, formParts_of,
    formParts_fit, ⟨formT⟩, rfl, rfl, by unfold NoSpace; decide +kernel, by decide, ⟨'w', by decide, by decide⟩, by decide, by decide,
    by unfold TwoDots; decide +kernel, by decide +kernel,
    by simp only [CxxSource, extOf_iff]; decide +kernel, by unfold Word NoSpace; decide +kernel⟩

/-! ### A form in a directory -/

/-- the registry after the call: the header of the form is made, in the directory `b/ui/f`; the compiler is called with
`-Ib/ui` -/
def formBad (L : LReg) : Bool :=
  decide (L.m.reg.targets.get "b/ui/f/ui_win.h" ≠ none) && decide (L.m.reg.targets.get "b/ui/ui_win.h" = none) &&
  match L.m.reg.targets.get "b/ui/f/ui_win.h", L.m.reg.targets.get "b/a.o" with
  | some x, some y => decide (L.cmd x = some "uic f/win.ui > b/ui/f/ui_win.h") &&
      decide ("b/ui/f/ui_win.h" ∈ (L.m.reg.obj y).deps) &&
      decide (L.cmd y = some "c++ -c a.cpp -o b/a.o -Ib/ui  -std=c++17 -g  ")
  | _, _ => false

/-- **C155 violated**: a form `f/win.ui`.  Its header is made and the object depends on it, but where the source includes
`ui_win.h`, the compiler does not look for it where it is, nor at any other file that is known to licant. -/
theorem C155_violated : ∃ a L' b, task (formSite "f/win.ui") stdTools 10 10 (fun _ => 0) Lib.empty demoReg "l.py" "app" (some "app")
      none false "application" (formKw "f/win.ui") = .ok ((a, L'), b) ∧
    ∃ x y c, Resolves (formSite "f/win.ui").env.canon L'.m.reg "b/ui/f/ui_win.h" x ∧
      L'.cmd x = some "uic f/win.ui > b/ui/f/ui_win.h" ∧
      Resolves (formSite "f/win.ui").env.canon L'.m.reg "b/a.o" y ∧ ObjDep (formSite "f/win.ui").env.canon L'.m.reg y x ∧
      L'.cmd y = some c ∧
      ∀ f z, LooksAt c "ui_win.h" f → ¬ Resolves (formSite "f/win.ui").env.canon L'.m.reg f z := by
  obtain ⟨a, L', b, h, hQ⟩ := form_task (form := "f/win.ui") (Q := fun L => formBad L = true) (by
    refine resultIs_iff.1 ?_
    rw [modmake]
    have : (formSite "f/win.ui").env.home = id := rfl
    simp only [this, form_opts2, bind, Except.bind]
    decide +kernel)
  refine ⟨a, L', b, h, ?_⟩
  unfold formBad at hQ
  simp only [Bool.and_eq_true, decide_eq_true_eq] at hQ
  obtain ⟨⟨_, h2⟩, h3⟩ := hQ
  split at h3
  · rename_i x y hx hy
    simp only [Bool.and_eq_true, decide_eq_true_eq] at h3
    obtain ⟨⟨h4, h5⟩, h6⟩ := h3
    refine ⟨x, y, _, Or.inl hx, h4, Or.inl hy, ⟨_, h5, Or.inl hx⟩, h6, ?_⟩
    rintro f z ⟨d, hd, rfl⟩
    have hw : words "c++ -c a.cpp -o b/a.o -Ib/ui  -std=c++17 -g  " =
      ["c++", "-c", "a.cpp", "-o", "b/a.o", "-Ib/ui", "-std=c++17", "-g"] := by decide +kernel
    rw [hw] at hd
    have hd' : d = "b/ui" := by
      have hI : ∀ s ∈ ["c++", "-c", "a.cpp", "-o", "b/a.o", "-Ib/ui", "-std=c++17", "-g"],
          s.toList.take 2 = "-I".toList → s = "-Ib/ui" := by decide +kernel
      have h7 := hI _ hd (by rw [String.toList_append]; rfl)
      have h8 : "-I".toList ++ d.toList = "-I".toList ++ "b/ui".toList := by
        rw [← String.toList_append, h7]; decide
      exact String.toList_inj.1 (List.append_cancel_left h8)
    subst hd'
    have e : String.ofList (Path.normpath (Path.join "b/ui".toList "ui_win.h".toList)) = "b/ui/ui_win.h" := by decide +kernel
    rw [e]
    rintro (h9 | ⟨_, h9⟩)
    · rw [h2] at h9; cases h9
    · change L'.m.reg.targets.get "b/ui/ui_win.h" = _ at h9
      rw [h2] at h9; cases h9
  · cases h3

end Licant.Cxx
