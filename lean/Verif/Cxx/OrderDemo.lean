/-
An example for `C146_targets`: `module("log", include_paths=["li"])` and `module("conf", defines=["N"])` in the script `/m/l.py`,
in any order, and `application("app", target="/b/app", sources=["a.c", "b.c"], builddir="/b", include_modules=[submodule("conf"),
submodule("log")])` in the script `/s/l.py`.
-/
import Verif.Cxx.Order

set_option autoImplicit false

namespace Licant.Cxx
open Licant.Py Licant.Core Licant.Make
open Licant.Modules (Val Opts Toolchain Lib Orderless)

def ordOps : List Modules.Op := [.module "/m/l.py" "log" none false [("include_paths", .list [.str "li"])],
  .module "/m/l.py" "conf" none false [("defines", .list [.str "N"])]]

def ordKw : Opts := taskKw ++ [("include_modules", .list [.sub "conf" none, .sub "log" none])]

def ordCall : Call := ⟨"/s/l.py", "app", some "/b/app", none, false, "application", ordKw⟩

theorem ordOps_orderless : Orderless ordOps where
  once := by
    simp only [ordOps, List.pairwise_cons, List.mem_cons, List.not_mem_nil, or_false, forall_eq,
      List.Pairwise.nil, and_true, Modules.Op.registers]
    refine ⟨?_, ?_⟩ <;> intros <;> simp_all
    all_goals (rename_i h; rw [← h.1]; simp)
  choice := by
    simp only [ordOps, List.pairwise_cons, List.mem_cons, List.not_mem_nil, or_false, forall_eq,
      List.Pairwise.nil, and_true, Modules.Op.chooses]
    refine ⟨?_, ?_⟩ <;> intros <;> simp_all
    all_goals (rename_i h; rw [← h]; decide)
  pure n i := by simp [ordOps]

def ordBase : Lib :=
  match Lib.empty.run ordOps with
  | .ok l => l
  | .error _ => Lib.empty

def ordLib : Lib :=
  match ordBase.module "/s/l.py" "app__module" none false (taskOpts "app" "application" (some "/b/app") ordKw) with
  | .ok l => l
  | .error _ => Lib.empty

def ordOwn : Opts :=
  match merge stdTools id .merge (setDefaults stdTools []) (ordLib.obj 2).opts with
  | .ok r => r
  | .error _ => []

def ordR : Opts :=
  match inclMods stdTools id 10 (ordLib, ordOwn) [.sub "conf" none, .sub "log" none] with
  | .ok r => r.2
  | .error _ => []

theorem ord_opts : finalOpts stdTools id 10 10 (fun _ => 0) ordLib "app__module" none (setDefaults stdTools []) =
    .ok (ordLib, ordR) := by
  have hc : Modules.collect 10 10 ordLib (fun _ => 0) 2 = .ok (ordLib, []) := by
    have h : ((ordLib.obj 2).opts.has "mdepends") = false := rfl
    unfold Modules.collect Modules.collectIf
    simp [h, Modules.collectLoop, bind, Except.bind, pure, Except.pure]
  exact finalOpts_of (L1 := ordLib) (own := ordOwn) rfl rfl rfl rfl rfl rfl hc rfl

theorem ord_run : ∃ r, describeAll demoSite stdTools 10 10 (ordBase, demoReg) [(ordCall, fun _ => 0)] = .ok r := by
  have h1 : ordBase.module "/s/l.py" "app__module" none false (taskOpts "app" "application" (some "/b/app") ordKw) =
    .ok ordLib := rfl
  have h2 : ∃ r, modmake demoSite stdTools 10 10 (fun _ => 0) 50 (ordLib, demoReg) "app__module" none (setDefaults stdTools []) =
      .ok r := by
    apply isOk_iff.1
    rw [modmake]
    have : demoSite.env.home = id := rfl
    simp only [this, ord_opts, bind, Except.bind]
    decide +kernel
  obtain ⟨⟨⟨a, c⟩, d, e⟩, h2⟩ := h2
  have h7 : ordCall.run demoSite stdTools 10 10 (fun _ => 0) ordBase demoReg = .ok ((a, c), d) := by
    unfold Call.run task prepareTargets ordCall
    have h3 : mkOptions stdTools [] = .ok [] := rfl
    have h4 : ([("type", Val.str "application"), ("target", .str ((some "/b/app").getD "app"))] ++ ordKw : Opts) =
      taskOpts "app" "application" (some "/b/app") ordKw := rfl
    have h5 : demoSite.lim = 50 := rfl
    have h6 : "app" ++ "__module" = "app__module" := by decide
    rw [if_pos (by decide)]
    simp only [h4, h6, h1, h3, h5, h2, bind, Except.bind]
    rfl
  exact ⟨(a, c), by simp [describeAll, h7, Except.map]⟩

/-- The two modules may be described in the other order: the application is registered in the same way, with the options of both. -/
example : Orderless ordOps ∧ ordOps.Perm ordOps.reverse ∧ ordR.get "include_paths" = some (.list [.str "/m/li"]) ∧
    ordR.get "defines" = some (.list [.str "N"]) ∧ ∃ M r, Lib.empty.run ordOps.reverse = .ok M ∧
      describeAll demoSite stdTools 10 10 (M, demoReg) [(ordCall, fun o => o)] = .ok r := by
  refine ⟨ordOps_orderless, (List.reverse_perm _).symm, rfl, rfl, ?_⟩
  obtain ⟨L, M, h1, h2, _, h3⟩ := C146_targets ordOps_orderless (List.reverse_perm ordOps).symm
  have h0 : Lib.empty.run ordOps = .ok ordBase := rfl
  rw [h0] at h1
  cases h1
  have h4 := h3 demoSite stdTools 10 10 demoReg [(ordCall, fun _ => 0)] [(ordCall, fun o => o)] rfl
  obtain ⟨r, hr⟩ := ord_run
  rw [hr] at h4
  cases h5 : describeAll demoSite stdTools 10 10 (M, demoReg) [(ordCall, fun o => o)] with
  | error e => rw [h5] at h4; cases h4
  | ok r' => exact ⟨M, r', h2, h5⟩

end Licant.Cxx
