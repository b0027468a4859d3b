/-
C108: describing a project succeeds, whatever is described in which order.
-/
import Verif.Make.Default
import Verif.Make.Wellformed

set_option autoImplicit false

namespace Licant.Make
open Licant.Py Licant.Core

variable {E : Env} {lim : Nat}

/-- `FileTarget.__init__` returns if one of the first ancestors of the path exists. -/
theorem fileInit_total (hE : E.Sane) : ∀ (k fuel : Nat) (d : MReg) (tgt : String) (deps : List String) (u : Bool),
    E.ex (anc (E.canon tgt) k) = true → k + 2 ≤ fuel → ∃ x, fileInit E fuel d tgt deps u = .ok x := by
  intro k
  induction k with
  | zero =>
    intro fuel d tgt deps u hk hf
    obtain ⟨f, rfl⟩ : ∃ f, fuel = f + 1 + 1 := ⟨fuel - 2, by omega⟩
    rw [anc_zero] at hk
    rw [fileInit]
    simp only [hk, Bool.not_true, Bool.and_false, Bool.false_eq_true, if_false]
    obtain ⟨d', hd⟩ := addSources_returns (fuel := f) hE (globs E deps) d
    unfold addSources at hd
    rw [hd]
    exact ⟨_, rfl⟩
  | succ k ih =>
    intro fuel d tgt deps u hk hf
    obtain ⟨f, rfl⟩ : ∃ f, fuel = f + 1 + 1 := ⟨fuel - 2, by omega⟩
    rw [fileInit]
    simp only
    by_cases hc : (u && !E.ex (parent (E.canon tgt))) = true
    · rw [if_pos hc]
      have hm : E.ex (parent (E.canon tgt)) = false := by
        rw [Bool.and_eq_true] at hc
        simpa using hc.2
      have hk' : E.ex (anc (E.canon (parent (E.canon tgt))) k) = true := by
        cases hx : E.ex (anc (E.canon (parent (E.canon tgt))) k) with
        | true => rfl
        | false => rw [(anc_canon_parent hE hm hx).1] at hk; cases hk
      obtain ⟨⟨d1, t, ds⟩, h1⟩ := ih (f + 1) d (parent (E.canon tgt)) [] (!E.ex (parent (parent (E.canon tgt)))) hk' (by omega)
      rw [h1]
      simp only
      obtain ⟨d', hd⟩ := addSources_returns (fuel := f) hE (globs E (deps ++ [parent (E.canon tgt)])) (d1.add (makeObj t ds) .dir)
      unfold addSources at hd
      rw [hd]
      exact ⟨_, rfl⟩
    · rw [if_neg hc]
      simp only
      obtain ⟨d', hd⟩ := addSources_returns (fuel := f) hE (globs E deps) d
      unfold addSources at hd
      rw [hd]
      exact ⟨_, rfl⟩

/-- one of the first ancestors of a path exists -/
theorem anc_exists (hE : E.Sane) {p : String} {n : Nat} (h : p.toList.length ≤ n) : ∃ k ≤ n, E.ex (anc p k) = true := by
  obtain ⟨i, hi, hr⟩ := Path.ancestor_root n p.toList h
  rw [← toList_iterate] at hr
  exact ⟨i, hi, hE.roots _ hr⟩

/-- the path is short enough -/
def Short (E : Env) (lim : Nat) (p : String) : Prop := (E.canon p).toList.length + 2 ≤ lim

theorem fileInit_short (hE : E.Sane) (d : MReg) {tgt : String} (deps : List String) (u : Bool) (h : Short E lim tgt) :
    ∃ x, fileInit E lim d tgt deps u = .ok x := by
  obtain ⟨k, hk, hx⟩ := anc_exists hE (le_refl (E.canon tgt).toList.length)
  exact fileInit_total hE k lim d tgt deps u hx (by unfold Short at h; omega)

theorem sourceG_returns (hE : E.Sane) (d : MReg) {tgt : String} (deps : List String) (h : Short E lim tgt) :
    ∃ d', sourceG E lim d tgt deps = .ok d' := by
  unfold sourceG
  simp only
  split
  · exact ⟨_, rfl⟩
  · obtain ⟨⟨d1, t, ds⟩, h1⟩ := fileInit_short hE (d.has E.canon tgt).1 deps true h
    rw [h1]
    exact ⟨_, rfl⟩

theorem makefileG_returns (hE : E.Sane) (w : World) {tgt : String} (deps : List String) (core : Bool) (h : Short E lim tgt) :
    ∃ w', makefileG E lim w tgt deps core = .ok w' := by
  unfold makefileG
  obtain ⟨⟨d1, t, ds⟩, h1⟩ := fileInit_short hE w.dflt deps true h
  rw [h1]
  exact ⟨_, rfl⟩

theorem copyG_returns (hE : E.Sane) (w : World) {tgt src : String} (adddeps : List String) (core : Bool)
    (h : Short E lim (E.home tgt)) (h' : Short E lim (E.home src)) : ∃ w', copyG E lim w tgt src adddeps core = .ok w' := by
  unfold copyG
  obtain ⟨d, h1⟩ := sourceG_returns hE w.dflt [] h'
  simp only [h1]
  exact makefileG_returns hE _ _ _ h

theorem filesetG_returns (hE : E.Sane) (hl : 0 < lim) (w : World) (tgt : String) (targets deps : List String) (core : Bool) :
    ∃ w', filesetG E lim w tgt targets deps core = .ok w' := by
  unfold filesetG
  obtain ⟨f, rfl⟩ : ∃ f, lim = f + 1 := ⟨lim - 1, by omega⟩
  obtain ⟨d, h1⟩ := addSources_returns (fuel := f) hE (globs E (deps ++ targets)) w.dflt
  simp only [h1]
  exact ⟨_, rfl⟩

theorem targetG_returns (hE : E.Sane) (hl : 0 < lim) (w : World) (tgt : String) (deps : List String) (upd : Bool)
    (act : String) : ∃ w', targetG E lim w tgt deps upd act = .ok w' := by
  unfold targetG
  obtain ⟨f, rfl⟩ : ∃ f, lim = f + 1 := ⟨lim - 1, by omega⟩
  obtain ⟨d, h1⟩ := addSources_returns (fuel := f) hE (globs E deps) w.dflt
  simp only [h1]
  exact ⟨_, rfl⟩

/-- the paths of the files described by a call -/
def CallD.files (E : Env) : CallD → List String
  | .source src => [src]
  | .makefile tgt _ => [tgt]
  | .copy tgt src _ => [E.home tgt, E.home src]
  | .fileset _ _ _ => []
  | .target _ _ _ _ => []
  | .makedir dir => [dir]

/-- **C108**.  Every sequence of calls of `source`, `makefile`, `copy`, `fileset`, `makedir`, `target`, `updtarget` and `routine` returns,
in whatever order and whatever is already described: only paths longer than the recursion limit can make a description fail. -/
theorem C108_default (hE : E.Sane) (hl : 0 < lim) (calls : List CallD) (w : World)
    (h : ∀ cl ∈ calls, ∀ p ∈ cl.files E, Short E lim p) : ∃ w', calls.foldlM (callD E lim) w = .ok w' := by
  induction calls generalizing w with
  | nil => exact ⟨w, rfl⟩
  | cons cl calls ih =>
    have hcl := h cl (by simp)
    have : ∃ w', callD E lim w cl = .ok w' := by
      cases cl with
      | source src =>
        obtain ⟨d, h1⟩ := sourceG_returns hE w.dflt [] (hcl src (by simp [CallD.files]))
        simp only [callD, h1]
        exact ⟨_, rfl⟩
      | makefile tgt deps => exact makefileG_returns hE _ _ _ (hcl tgt (by simp [CallD.files]))
      | copy tgt src adddeps =>
        exact copyG_returns hE _ _ _ (hcl _ (by simp [CallD.files])) (hcl _ (by simp [CallD.files]))
      | fileset tgt targets deps => exact filesetG_returns hE hl _ _ _ _ _
      | target tgt deps upd act => exact targetG_returns hE hl _ _ _ _ _
      | makedir dir =>
        obtain ⟨⟨d1, t, ds⟩, h1⟩ := fileInit_short hE w.dflt [] (!E.ex (parent dir)) (hcl dir (by simp [CallD.files]))
        simp only [callD, dirkeepG, h1]
        exact ⟨_, rfl⟩
    obtain ⟨w1, h1⟩ := this
    simp only [List.foldlM_cons, bind, Except.bind, h1]
    exact ih w1 fun c hc => h c (by simp [hc])

/-- the path whose missing directories a call of a method of the core looks for -/
def Call.path (E : Env) : Call → String
  | .source src => src
  | .ftarget tgt _ => E.home tgt
  | .copy _ dst _ => E.home dst

/-- C108 for the methods of a core. -/
theorem C108_core (hE : E.Sane) (calls : List Call) (w : World)
    (h : ∀ cl ∈ calls, (cl.path E).toList.length + 2 ≤ lim) : ∃ w', calls.foldlM (call E lim) w = .ok w' := by
  induction calls generalizing w with
  | nil => exact ⟨w, rfl⟩
  | cons cl calls ih =>
    have hcl := h cl (by simp)
    have : ∃ w', call E lim w cl = .ok w' := by
      cases cl with
      | source src =>
        have : ∃ r, sourceC E lim w src = .ok r := by
          unfold sourceC
          simp only
          split
          · rename_i hh
            obtain ⟨o, ho⟩ := has_true.1 hh
            rw [get_ok.2 (((has_extends hE.idem w.own src).2.2.2.2 _ _).2 ho)]
            exact ⟨_, rfl⟩
          · exact addFileC_returns hE (by omega) _ _ _ _
        obtain ⟨r, hr⟩ := this
        simp only [call, hr]
        exact ⟨_, rfl⟩
      | ftarget tgt deps =>
        simp only [Call.path] at hcl
        obtain ⟨⟨r, hr⟩, -⟩ := C40_returns (lim := lim) hE w tgt tgt deps (by omega)
        simp only [call, hr]
        exact ⟨_, rfl⟩
      | copy src dst deps =>
        simp only [Call.path] at hcl
        obtain ⟨-, ⟨r, hr⟩⟩ := C40_returns (lim := lim) hE w dst src deps (by omega)
        simp only [call, hr]
        exact ⟨_, rfl⟩
    obtain ⟨w1, h1⟩ := this
    simp only [List.foldlM_cons, bind, Except.bind, h1]
    exact ih w1 fun c hc => h c (by simp [hc])

/-- Such a description, in the environment of C43, with directories to be made. -/
example : (∀ cl ∈ [CallD.copy "/s/out/b" "/s/a" [], .makefile "/s/x/y/z" ["/s/out/b"], .fileset "all" ["/s/x/y/z"] []],
      ∀ p ∈ cl.files srcEnv, Short srcEnv 1000 p) ∧ srcEnv.ex "/s/x" = false ∧
    ∃ w', [CallD.copy "/s/out/b" "/s/a" [], .makefile "/s/x/y/z" ["/s/out/b"], .fileset "all" ["/s/x/y/z"] []].foldlM
      (callD srcEnv 1000) ⟨licantReg, noReg⟩ = .ok w' := by
  have h : ∀ cl ∈ [CallD.copy "/s/out/b" "/s/a" [], .makefile "/s/x/y/z" ["/s/out/b"], .fileset "all" ["/s/x/y/z"] []],
      ∀ p ∈ cl.files srcEnv, Short srcEnv 1000 p := by
    intro cl hcl p hp
    simp only [List.mem_cons, List.not_mem_nil, or_false] at hcl
    rcases hcl with rfl | rfl | rfl <;> simp only [CallD.files, List.mem_cons, List.not_mem_nil, or_false] at hp
    · rcases hp with rfl | rfl <;> (unfold Short; decide +kernel)
    · subst hp; unfold Short; decide +kernel
  exact ⟨h, by decide +kernel, C108_default srcEnv_sane (by omega) _ _ h⟩

end Licant.Make
