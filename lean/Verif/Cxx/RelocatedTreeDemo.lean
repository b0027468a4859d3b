/-
A C++ program in the directory `/s` of a file tree, and a copy in `/q/t` of another one: the assumptions of C152 hold.
-/
import Verif.Cxx.RelocatedTree
import Verif.Cxx.RelocatedDemo
import Verif.Make.RelocatedTreeDemo

set_option autoImplicit false

namespace Licant.Cxx
open Licant.Py Licant.Core Licant.Make Relation
open Licant.Modules (Val Opts Toolchain Lib IsModule)
open Licant.Py.Path Licant.Make.Fs

/-- a source, a header, and what has been made from them -/
def cpBase : List (List Str × Node) :=
  [([nm "a.cpp"], .file), ([nm "h.h"], .file), ([nm "b"], .dir), ([nm "b", nm "a.d"], .file), ([nm "b", nm "a.o"], .file)]

def cpEntries (d : List Str) : List (List Str × Node) := cpBase.map fun e => (d ++ e.1, e.2)

/-- `/s` with these files; nothing else -/
def cpHere : List (List Str × Node) := ([nm "s"], .dir) :: cpEntries [nm "s"]

/-- `/q/t` with these files, and other files -/
def cpAway : List (List Str × Node) :=
  [([nm "q"], .dir), ([nm "q", nm "t"], .dir), ([nm "q", nm "h.h"], .file), ([nm "s"], .file)] ++ cpEntries [nm "q", nm "t"]

theorem cp_closed : Closed cpHere ∧ Closed cpAway := by decide +kernel

def cpTree : Tree := Tree.ofList cpHere cp_closed.1
def cpTree' : Tree := Tree.ofList cpAway cp_closed.2

theorem cp_find (d q : List Str) (es : List (List Str × Node)) :
    (((es.map fun e => (d ++ e.1, e.2)).find? fun e => e.1 == d ++ q).map (·.2)) = (es.find? fun e => e.1 == q).map (·.2) := by
  induction es with
  | nil => rfl
  | cons e es ih =>
    simp only [List.map_cons, List.find?]
    by_cases h : e.1 = q
    · simp [h]
    · have h1 : (e.1 == q) = false := by simpa using h
      have h2 : (d ++ e.1 == d ++ q) = false := by simpa using h
      rw [h1, h2]
      exact ih

theorem cp_nolink : (∀ q t, cpTree.get q ≠ some (.link t)) ∧ ∀ q t, cpTree'.get q ≠ some (.link t) := by
  have h : (∀ e ∈ cpHere, e.2 = .dir ∨ e.2 = .file) ∧ ∀ e ∈ cpAway, e.2 = .dir ∨ e.2 = .file := by decide +kernel
  refine ⟨noLink_ofList _ fun e he t => ?_, noLink_ofList _ fun e he t => ?_⟩
  · rcases h.1 e he with h | h <;> rw [h] <;> simp
  · rcases h.2 e he with h | h <;> rw [h] <;> simp

theorem cp_copied : CopiedDir cpTree cpTree' [nm "s"] [nm "q", nm "t"] where
  ne := by simp
  ne' := by simp
  dir := by decide +kernel
  same := by
    intro q
    show look cpAway ([nm "q", nm "t"] ++ q) = look cpHere ([nm "s"] ++ q)
    rcases q with _ | ⟨a, q⟩
    · decide +kernel
    · unfold look
      rw [if_neg (by simp), if_neg (by simp)]
      have e1 : (cpAway.find? fun e => e.1 == [nm "q", nm "t"] ++ a :: q) =
          (cpEntries [nm "q", nm "t"]).find? fun e => e.1 == [nm "q", nm "t"] ++ a :: q := by
        have h1 : (nm "h.h" == nm "t") = false := by decide
        simp [cpAway, List.find?, h1]
      have e2 : (cpHere.find? fun e => e.1 == [nm "s"] ++ a :: q) = (cpEntries [nm "s"]).find? fun e => e.1 == [nm "s"] ++ a :: q := by
        simp [cpHere]
      rw [e1, e2]
      exact (cp_find _ _ _).trans (cp_find _ _ _).symm
  nolink := fun q t => cp_nolink.1 _ t

/-- what a process in `d` sees; the dependency file has been written with relative names -/
def cpSite (T : Tree) (d : List Str) : Site where
  env := flatEnv T d
  lim := 50
  uni := fun _ => false
  file := fun p => if p = "b/a.d" then some "a.o: a.cpp h.h\n".toList else none

def cpS : Site := cpSite cpTree [nm "s"]
def cpS' : Site := cpSite cpTree' [nm "q", nm "t"]

def cpFiles : List String := ["a.cpp", "h.h", "b/a.o", "b/a.d", "app"]

theorem cp_above {f : String} (hf : f ∈ cpFiles) (i : Nat) : cpS.env.ex (anc (cpS.env.canon f) i) = true := by
  have h : ∀ a ∈ ["/s/b", "/s", "/"], Make.parent a ∈ ["/s/b", "/s", "/"] ∧ cpS.env.ex a = true := by decide +kernel
  have h1 : ∀ f ∈ cpFiles, Make.parent (cpS.env.canon f) ∈ ["/s/b", "/s", "/"] := by decide +kernel
  exact (h _ (anc_mem (fun a ha => (h a ha).1) (h1 f hf) i)).2

theorem cp_missing {f : String} (hf : f ∈ cpFiles) {q : String} : ¬ MissingDir cpS.env (cpS.env.canon f) q := by
  rintro ⟨i, h, _⟩
  rw [cp_above hf] at h
  cases h

theorem cp_free {p : String} (h : (∀ n ∈ licantNames, cpS.env.canon n ≠ cpS.env.canon p) ∧ cpS.env.canon p ∉ licantNames) :
    Free cpS.env licantReg p := by
  rintro n o hn (hr | ⟨_, hr⟩)
  · exact h.1 n (licantReg_get hr).2.2 hn
  · rw [hn] at hr; exact h.2 (licantReg_get hr).2.2

theorem cp_fit : mvParts.Fit cpS licantReg "app__module__local_headers__" "app" cpFiles [] where
  room := by
    refine ⟨?_, ?_, ?_, ?_, ?_, ?_, ?_⟩
    · intro f hf
      refine ⟨by revert f; decide +kernel, by revert f; decide +kernel, fun q hq => absurd hq (cp_missing hf)⟩
    · intro r hr; cases hr
    · intro f _ g hg q hq; exact absurd hq (cp_missing hg)
    · intro f _ b hb; rw [licantReg_kind] at hb; cases hb
    · intro f hf x hx
      exact absurd hx (cp_free (by clear hx; revert f; decide +kernel) f x rfl)
    · intro r hr; cases hr
    · intro f hf
      refine ⟨fun a q h => ?_, fun i o h => ?_⟩
      · rw [licantReg_kind] at h; rcases h with h | h <;> cases h
      · rw [cp_above hf] at h; cases h
  files := by decide +kernel
  homes := by intro m hm; cases hm
  outputs := by decide +kernel
  free := fun p hp => cp_free (by revert p; decide +kernel)
  raws := by intro f hf; cases hf
  ins := by decide +kernel
  extras := by intro f hf; cases hf
  depends := by intro f hf; cases hf
  set := ⟨cp_free (by decide +kernel), by decide +kernel, by decide +kernel, fun f hf => ⟨by revert f; decide +kernel, cp_missing hf⟩⟩

theorem cp_rel : ∀ n ∈ mvParts.names cpS (taskModule "app" "application" ++ "__local_headers__") ++ ["app"] ++ cpFiles ++ [], Rel n := by
  have h : ∀ n ∈ mvParts.names cpS (taskModule "app" "application" ++ "__local_headers__") ++ ["app"] ++ cpFiles ++ [],
      n ∈ ["a.cpp", "h.h", "b/a.o", "b/a.d", "app", "app__module__local_headers__"] := by decide +kernel
  intro n hn
  have := h n hn
  simp only [List.mem_cons, List.not_mem_nil, or_false] at this
  rcases this with rfl | rfl | rfl | rfl | rfl | rfl
  · exact ⟨[nm "a.cpp"], by simp, by decide, by decide +kernel⟩
  · exact ⟨[nm "h.h"], by simp, by decide, by decide +kernel⟩
  · exact ⟨[nm "b", nm "a.o"], by simp, by decide, by decide +kernel⟩
  · exact ⟨[nm "b", nm "a.d"], by simp, by decide, by decide +kernel⟩
  · exact ⟨[nm "app"], by simp, by decide, by decide +kernel⟩
  · exact ⟨[nm "app__module__local_headers__"], by simp, by decide, by decide +kernel⟩

/-- The hypotheses of `C152_program` hold: `/s` is copied to `/q/t` after its program has been compiled but not linked, and
`application("app", ...)` registers the program in both places. -/
example : CopiedDir cpTree cpTree' [nm "s"] [nm "q", nm "t"] ∧ NoDangling cpTree ∧ NoDangling cpTree' ∧
    Realises cpTree [nm "s"] cpS.env ∧ Realises cpTree' [nm "q", nm "t"] cpS'.env ∧
    (∀ p : String, p.toList.head? ≠ some '~' → cpS.env.home p = p) ∧ cpS'.env.home = cpS.env.home ∧
    (∀ p, cpS.env.glob p = [] ∧ cpS'.env.glob p = []) ∧
    LCopied (moveDir [nm "s"] [nm "q", nm "t"]) (Inside [nm "s"]) demoReg demoReg ∧
    GoodD cpS.env demoReg.m ∧ GoodD cpS'.env demoReg.m ∧
    (∃ a c d, task cpS stdTools 10 10 (fun _ => 0) Lib.empty demoReg "l.py" "app" (some "app") none false "application" mvKw =
      .ok ((a, c), d) ∧ knows ["/s/app", "/s/b/a.o", "/s/b/a.d", "b/a.o", "h.h"] c = true) ∧
    (∃ a c d, task cpS' stdTools 10 10 (fun _ => 0) Lib.empty demoReg "l.py" "app" (some "app") none false "application" mvKw =
      .ok ((a, c), d) ∧ knows ["/q/t/app", "/q/t/b/a.o", "/q/t/b/a.d", "b/a.o", "h.h"] c = true) ∧
    finalOpts stdTools cpS.env.home 10 10 (fun _ => 0) mvLib (taskModule "app" "application") none (setDefaults stdTools []) =
      .ok (mvLib, mvR) ∧
    PartsOf cpS mvR mvParts ∧ PartsOf cpS' mvR mvParts ∧
    (∀ u ∈ mvParts.us, cpS'.headers u.2.2 = cpS.headers u.2.2) ∧
    (∀ n ∈ mvParts.names cpS (taskModule "app" "application" ++ "__local_headers__") ++ ["app"] ++ cpFiles ++ [], Rel n) ∧
    mvParts.Fit cpS demoReg.m (taskModule "app" "application" ++ "__local_headers__") "app" cpFiles [] := by
  refine ⟨cp_copied, fun a b t ht => absurd ht (cp_nolink.1 _ t), fun a b t ht => absurd ht (cp_nolink.2 _ t),
    flatEnv_realises cp_nolink.1 _, flatEnv_realises cp_nolink.2 _, fun _ _ => rfl, rfl, fun _ => ⟨rfl, rfl⟩,
    ⟨copied_licantReg licant_inside, fun _ => rfl⟩, goodD_licantReg, goodD_licantReg, ?_, ?_, mv_opts, ?_, ?_, ?_, cp_rel, cp_fit⟩
  · refine mv_task rfl (Q := fun L => knows _ L = true) (resultIs_iff.1 ?_)
    rw [modmake]
    have : cpS.env.home = id := rfl
    simp only [this, mv_opts, bind, Except.bind]
    decide +kernel
  · refine mv_task rfl (Q := fun L => knows _ L = true) (resultIs_iff.1 ?_)
    rw [modmake]
    have : cpS'.env.home = id := rfl
    simp only [this, mv_opts, bind, Except.bind]
    decide +kernel
  · refine ⟨"b", [], [], ["a.cpp"], [], [], rfl, rfl, .nil, rfl, rfl, rfl, rfl, rfl, ?_, ?_, ?_, rfl⟩ <;> decide +kernel
  · refine ⟨"b", [], [], ["a.cpp"], [], [], rfl, rfl, .nil, rfl, rfl, rfl, rfl, rfl, ?_, ?_, ?_, rfl⟩ <;> decide +kernel
  · decide +kernel

end Licant.Cxx
