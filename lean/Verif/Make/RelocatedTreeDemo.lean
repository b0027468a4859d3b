/-
A directory that is copied: the assumptions of C152 can be met.
-/
import Verif.Make.RelocatedTree

set_option autoImplicit false

namespace Licant.Make.Fs
open Licant.Py Licant.Py.Path Licant.Core

/-- `/s` with the file `a.c`; nothing else -/
def hereEntries : List (List Str × Node) := [([nm "s"], .dir), ([nm "s", nm "a.c"], .file)]

/-- `/q/t` with the file `a.c`, and other files -/
def awayEntries : List (List Str × Node) :=
  [([nm "q"], .dir), ([nm "q", nm "t"], .dir), ([nm "q", nm "t", nm "a.c"], .file), ([nm "q", nm "b"], .file), ([nm "s"], .file)]

theorem away_closed : Closed hereEntries ∧ Closed awayEntries := by decide +kernel

def here : Tree := Tree.ofList hereEntries away_closed.1
def away : Tree := Tree.ofList awayEntries away_closed.2

theorem noLink_ofList {es : List (List Str × Node)} (h : Closed es) (hes : ∀ e ∈ es, ∀ t, e.2 ≠ .link t) :
    ∀ q t, (Tree.ofList es h).get q ≠ some (.link t) := by
  intro q t e
  rcases List.eq_nil_or_concat q with rfl | ⟨r, c, rfl⟩
  · rw [(Tree.ofList es h).root] at e; cases e
  · rw [List.concat_eq_append] at e
    exact hes _ (look_mem e) t rfl

theorem here_nolink : ∀ q t, here.get q ≠ some (.link t) :=
  noLink_ofList _ (by intro e he t; simp only [hereEntries, List.mem_cons, List.not_mem_nil, or_false] at he; rcases he with rfl | rfl <;> simp)

theorem away_nolink : ∀ q t, away.get q ≠ some (.link t) :=
  noLink_ofList _ (by
    intro e he t
    simp only [awayEntries, List.mem_cons, List.not_mem_nil, or_false] at he
    rcases he with rfl | rfl | rfl | rfl | rfl <;> simp)

theorem away_copied : CopiedDir here away [nm "s"] [nm "q", nm "t"] where
  ne := by simp
  ne' := by simp
  dir := by decide +kernel
  same := by
    intro q
    show look awayEntries ([nm "q", nm "t"] ++ q) = look hereEntries ([nm "s"] ++ q)
    rcases q with _ | ⟨a, q⟩
    · decide +kernel
    · unfold look
      rw [if_neg (by simp), if_neg (by simp)]
      rcases q with _ | ⟨b, q⟩
      · simp only [awayEntries, hereEntries, List.find?]
        by_cases h : nm "a.c" = a
        · simp [h]
        · have hb : (nm "a.c" == a) = false := by simpa using h
          simp [hb]
      · simp [awayEntries, hereEntries, List.find?]
  nolink := fun q t => here_nolink _ t

def hereEnv : Env := flatEnv here [nm "s"]
def awayEnv : Env := flatEnv away [nm "q", nm "t"]

/-- the script: `makefile("b/x", ["a.c"])` -/
def awayCalls : List CallD := [.makefile "b/x" ["a.c"]]

theorem awayCalls_reasonable : ReasonableSeq hereEnv 10 ⟨licantReg, noReg⟩ awayCalls := by
  intro pre cl post w he hw
  have h1 : pre = [] ∧ cl = .makefile "b/x" ["a.c"] := by
    rcases pre with _ | ⟨x, pre⟩
    · simp only [awayCalls, List.nil_append, List.cons.injEq] at he; exact ⟨rfl, he.1.symm⟩
    · simp [awayCalls] at he
  obtain ⟨rfl, rfl⟩ := h1
  cases hw
  have hA : ∀ a ∈ ["/s/b", "/s", "/"], Make.parent a ∈ ["/s/b", "/s", "/"] ∧ hereEnv.canon a = a ∧ '*' ∉ a.toList ∧ a ∉ licantNames := by
    decide +kernel
  have hc : hereEnv.canon "b/x" = "/s/b/x" := by decide +kernel
  have hc' : hereEnv.canon "/s/b/x" = "/s/b/x" := by decide +kernel
  have hp : Make.parent "/s/b/x" ∈ ["/s/b", "/s", "/"] := by decide +kernel
  have hanc := anc_mem (fun a ha => (hA a ha).1) hp
  have hmd : ∀ q, MissingDir hereEnv "/s/b/x" q → q ∈ ["/s/b", "/s", "/"] := by
    rintro q ⟨i, _, rfl⟩
    rw [(hA _ (hanc i)).2.1]
    exact hanc i
  have hno : ∀ n o, n ∉ licantNames → hereEnv.canon n ∉ licantNames → ¬ Resolves hereEnv.canon licantReg.reg n o := by
    rintro n o h1 h2 (h | ⟨_, h⟩)
    · exact h1 (licantReg_get h).2.2
    · exact h2 (licantReg_get h).2.2
  refine ⟨⟨⟨?_, ?_⟩, ?_, ?_, ?_, ?_, ?_⟩, ?_⟩
  · rw [hc]; decide
  · rw [hc]; exact fun q hq => (hA q (hmd q hq)).2.2.1
  · rw [hc]; exact fun o => hno _ o (by decide) (by rw [hc']; decide)
  · rw [hc]
    intro q hq
    refine ⟨fun e => ?_, ?_⟩
    · have := hmd q hq
      rw [← e] at this
      revert this; decide
    · rintro ⟨i, hi⟩
      have := anc_mem (fun a ha => (hA a ha).1) (hA _ (hmd q hq)).1 i
      rw [← hi] at this
      revert this; decide
  · intro b hb; rw [licantReg_kind] at hb; cases hb
  · rintro a q (h | h) <;> rw [licantReg_kind] at h <;> cases h
  · rw [hc]
    rintro i o _ (h | h)
    · exact absurd h (hno _ o (hA _ (hanc i)).2.2.2 (by rw [(hA _ (hanc i)).2.1]; exact (hA _ (hanc i)).2.2.2))
    · rw [(hA _ (hanc i)).2.1] at h
      exact absurd h (hno _ o (hA _ (hanc i)).2.2.2 (by rw [(hA _ (hanc i)).2.1]; exact (hA _ (hanc i)).2.2.2))
  · intro r hr
    have hg : globs hereEnv ["a.c"] = ["a.c"] := by decide +kernel
    rw [hg, List.mem_singleton] at hr
    subst hr
    have hr : hereEnv.canon "a.c" = "/s/a.c" := by decide +kernel
    refine ⟨by rw [hc, hr]; decide, Or.inr ⟨by decide +kernel, ?_, ?_, ?_⟩⟩
    · intro o h; exact absurd h (hno _ o (by decide) (by rw [hr]; decide))
    · intro b hb; rw [licantReg_kind] at hb; cases hb
    · rw [hc, hr]
      rintro q hq ⟨i, hi⟩
      have := anc_mem (fun a ha => (hA a ha).1) (hA _ (hmd q hq)).1 i
      rw [← hi] at this
      revert this; decide

/-- The hypotheses of `C152_directory` hold for a directory `/s` that is copied to `/q/t`, and the calls, which are the same, register
the missing directory, the source and the file in both places. -/
example : CopiedDir here away [nm "s"] [nm "q", nm "t"] ∧ NoDangling here ∧ NoDangling away ∧
    Realises here [nm "s"] hereEnv ∧ Realises away [nm "q", nm "t"] awayEnv ∧
    (∀ cl ∈ awayCalls, ∀ n ∈ cl.names, Inside [nm "s"] n) ∧
    ReasonableSeq hereEnv 10 ⟨licantReg, noReg⟩ awayCalls ∧
    awayCalls.map (CallD.ren (moveDir [nm "s"] [nm "q", nm "t"])) = awayCalls ∧
    (∃ w, awayCalls.foldlM (callD hereEnv 10) ⟨licantReg, noReg⟩ = .ok w ∧
      w.dflt.reg.targets.keys = licantNames ++ ["/s/b", "/s/a.c", "/s/b/x"]) ∧
    (∃ w, awayCalls.foldlM (callD awayEnv 10) ⟨licantReg, noReg⟩ = .ok w ∧
      w.dflt.reg.targets.keys = licantNames ++ ["/q/t/b", "/q/t/a.c", "/q/t/b/x"]) := by
  have hin : ∀ cl ∈ awayCalls, ∀ n ∈ cl.names, ∃ q : List Str, q ≠ [] ∧ (∀ c ∈ q, Path.Plain c ∧ '~' ∉ c) ∧ n = String.ofList (relPath q) := by
    intro cl hcl n hn
    rw [awayCalls, List.mem_singleton] at hcl
    subst hcl
    simp only [CallD.names, List.mem_cons, List.not_mem_nil, or_false] at hn
    rcases hn with rfl | rfl
    · exact ⟨[nm "b", nm "x"], by simp, by decide, by decide +kernel⟩
    · exact ⟨[nm "a.c"], by simp, by decide, by decide +kernel⟩
  refine ⟨away_copied, ?_, ?_, flatEnv_realises here_nolink _, flatEnv_realises away_nolink _, ?_, awayCalls_reasonable, ?_,
    ⟨_, rfl, by decide +kernel⟩, ⟨_, rfl, by decide +kernel⟩⟩
  · intro a b t ht; exact absurd ht (here_nolink _ t)
  · intro a b t ht; exact absurd ht (away_nolink _ t)
  · intro cl hcl n hn
    obtain ⟨q, h1, h2, h3⟩ := hin cl hcl n hn
    exact ⟨q, h2, Or.inr ⟨h1, h3⟩⟩
  · refine ren_relative fun cl hcl n hn => ?_
    obtain ⟨q, h1, h2, h3⟩ := hin cl hcl n hn
    exact ⟨q, h1, fun c hc => (h2 c hc).1, h3⟩

end Licant.Make.Fs
