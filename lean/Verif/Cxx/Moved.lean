/-
Copies of C++ projects: how C152 fails.
-/
import Verif.Cxx.LinkProps
import Verif.Make.Moved

set_option autoImplicit false

namespace Licant.Cxx
open Licant.Py Licant.Core Licant.Make Relation

/-- A project `/s`, which has been built, and a copy of it in `/t`, with all files.  The dependency file has been written for
`/s/a.c`: the compiler was called with this path (`dependCommand`), since the build script was named with its absolute path. -/
def copySite : Site where
  env :=
    { canon := fun p => p
      ex := fun p => decide (p ∈ [".", "/", "//", "/s", "/s/a.c", "/s/h.h", "/s/a.d", "/s/a.o", "/t", "/t/a.c", "/t/h.h", "/t/a.d", "/t/a.o"])
      home := fun p => p
      glob := fun _ => [] }
  lim := 50
  uni := fun _ => false
  file := fun p => if p = "/s/a.d" ∨ p = "/t/a.d" then some "a.o: /s/a.c /s/h.h\n".toList else none

/-- an empty registry -/
def emptyL : LReg := ⟨noReg, fun _ => false, fun _ => none⟩

/-- the object file in the copy -/
theorem copy_idle {α : Type} (P : Proj α) (V : String → Info)
    (ht : P.reg.targets = [("/t/a.c", 0), ("/s/h.h", 1), ("/t/a.d", 2), ("/t/a.o", 3)])
    (hp : ∀ i < 4, some (P.path i) = ["/t/a.c", "/s/h.h", "/t/a.d", "/t/a.o"][i]?)
    (hd : ∀ i < 4, some (P.reg.obj i).deps = [[], [], ["/t/a.c", "/s/h.h"], ["/t/a.c", "/t/a.d", "/s/h.h"]][i]?)
    (hk : ∀ i < 4, some (P.kind i) = [Kind.source, .source, .file, .file][i]?) (hf : ∀ i < 4, P.force i = false)
    (hex : ∀ f ∈ ["/t/a.c", "/t/a.d", "/t/a.o", "/s/h.h"], (V f).exist = true)
    (h1 : ∀ f ∈ ["/t/a.c", "/s/h.h"], (V f).mtime ≤ (V "/t/a.d").mtime) (h2 : (V "/t/a.d").mtime ≤ (V "/t/a.o").mtime) :
    ¬ NeedsWork P copySite.env.canon V 3 := by
  have hres : ∀ n o, Resolves copySite.env.canon P.reg n o → (n, o) ∈ [("/t/a.c", 0), ("/s/h.h", 1), ("/t/a.d", 2), ("/t/a.o", 3)] := by
    rintro n o (h | ⟨_, h⟩)
    · rw [← ht]; exact Dict.mem_of_get h
    · rw [← ht]; exact Dict.mem_of_get (h : P.reg.targets.get n = some o)
  have d0 : (P.reg.obj 0).deps = [] := Option.some.inj (hd 0 (by decide))
  have d1 : (P.reg.obj 1).deps = [] := Option.some.inj (hd 1 (by decide))
  have d2 : (P.reg.obj 2).deps = ["/t/a.c", "/s/h.h"] := Option.some.inj (hd 2 (by decide))
  have d3 : (P.reg.obj 3).deps = ["/t/a.c", "/t/a.d", "/s/h.h"] := Option.some.inj (hd 3 (by decide))
  have p0 : P.path 0 = "/t/a.c" := Option.some.inj (hp 0 (by decide))
  have p1 : P.path 1 = "/s/h.h" := Option.some.inj (hp 1 (by decide))
  have p2 : P.path 2 = "/t/a.d" := Option.some.inj (hp 2 (by decide))
  have p3 : P.path 3 = "/t/a.o" := Option.some.inj (hp 3 (by decide))
  have k0 : P.kind 0 = .source := Option.some.inj (hk 0 (by decide))
  have k1 : P.kind 1 = .source := Option.some.inj (hk 1 (by decide))
  have k2 : P.kind 2 = .file := Option.some.inj (hk 2 (by decide))
  have k3 : P.kind 3 = .file := Option.some.inj (hk 3 (by decide))
  -- the dependencies
  have dep : ∀ a b, a < 4 → ObjDep copySite.env.canon P.reg a b → (a = 2 ∧ b < 2) ∨ (a = 3 ∧ b < 3) := by
    rintro a b ha ⟨d, hd', hr⟩
    have hm := hres d b hr
    have : a = 0 ∨ a = 1 ∨ a = 2 ∨ a = 3 := by omega
    rcases this with rfl | rfl | rfl | rfl
    · rw [d0] at hd'; cases hd'
    · rw [d1] at hd'; cases hd'
    · rw [d2] at hd'
      simp only [List.mem_cons, Prod.mk.injEq, List.not_mem_nil, or_false] at hd' hm
      left; refine ⟨rfl, ?_⟩
      rcases hm with ⟨_, rfl⟩ | ⟨_, rfl⟩ | ⟨rfl, rfl⟩ | ⟨rfl, rfl⟩
      · decide
      · decide
      · exact absurd hd' (by decide)
      · exact absurd hd' (by decide)
    · rw [d3] at hd'
      simp only [List.mem_cons, Prod.mk.injEq, List.not_mem_nil, or_false] at hd' hm
      right; refine ⟨rfl, ?_⟩
      rcases hm with ⟨_, rfl⟩ | ⟨_, rfl⟩ | ⟨_, rfl⟩ | ⟨rfl, rfl⟩
      · decide
      · decide
      · decide
      · exact absurd hd' (by decide)
  have inp : ∀ a b, InputOf P copySite.env.canon a b → a < 4 → (a = 2 ∧ b < 2) ∨ (a = 3 ∧ b < 3) := by
    intro a b h
    induction h with
    | direct h _ => intro ha; exact dep _ _ ha h
    | @through o s o' h hs _ _ =>
      intro ha
      have := dep _ _ ha h
      have : s = 0 ∨ s = 1 ∨ s = 2 := by omega
      rcases this with rfl | rfl | rfl
      · rw [k0] at hs; cases hs
      · rw [k1] at hs; cases hs
      · rw [k2] at hs; cases hs
  have clo : ∀ b, Closure copySite.env.canon P.reg 3 b → b < 4 := by
    intro b h
    induction h with
    | refl => decide
    | tail _ h ih => have := dep _ _ ih h; omega
  rintro ⟨b, hb, ho⟩
  have hb4 := clo b hb
  have old : ∀ i < 3, (V (P.path i)).mtime ≤ (V "/t/a.d").mtime := by
    intro i hi
    have : i = 0 ∨ i = 1 ∨ i = 2 := by omega
    rcases this with rfl | rfl | rfl
    · rw [p0]; exact h1 _ (by decide)
    · rw [p1]; exact h1 _ (by decide)
    · rw [p2]
  have hpe : ∀ i < 4, (V (P.path i)).exist = true := by
    intro i hi
    have : i = 0 ∨ i = 1 ∨ i = 2 ∨ i = 3 := by omega
    rcases this with rfl | rfl | rfl | rfl
    · rw [p0]; exact hex _ (by decide)
    · rw [p1]; exact hex _ (by decide)
    · rw [p2]; exact hex _ (by decide)
    · rw [p3]; exact hex _ (by decide)
  have hfile : P.force b = true ∨ (V (P.path b)).exist = false ∨
      ∃ c, InputOf P copySite.env.canon b c ∧ (V (P.path c)).mtime > (V (P.path b)).mtime := by
    have : b = 0 ∨ b = 1 ∨ b = 2 ∨ b = 3 := by omega
    rcases this with rfl | rfl | rfl | rfl
    · simpa only [OutOfDate, k0] using ho
    · simpa only [OutOfDate, k1] using ho
    · simpa only [OutOfDate, k2] using ho
    · simpa only [OutOfDate, k3] using ho
  rcases hfile with h | h | ⟨c, hc, hn⟩
  · rw [hf b hb4] at h; cases h
  · rw [hpe b hb4] at h; cases h
  · rcases inp _ _ hc hb4 with ⟨rfl, hc2⟩ | ⟨rfl, hc3⟩
    · have := old c (by omega)
      rw [p2] at hn
      omega
    · have := old c hc3
      rw [p3] at hn
      omega

/-- **C152 violated**: the targets of the object files of a project `/s` and of a copy of it in `/t`.  A newer header `/s/h.h` makes
the original object file out of date.  In the copy, no build recompiles when only the header `/t/h.h` of the copy is newer, or missing: the
object file there depends on `/s/h.h`, and is recompiled when that one is newer. -/
theorem C152_violated : ∃ L L',
    linkObjects copySite emptyL ["/s/a.c"] ["/s/a.o"] ["/s/a.d"] demoOpts [] = .ok L ∧
    linkObjects copySite emptyL ["/t/a.c"] ["/t/a.o"] ["/t/a.d"] demoOpts [] = .ok L' ∧
    L.m.reg.targets.get "/s/a.o" = some 3 ∧ L'.m.reg.targets.get "/t/a.o" = some 3 ∧
    ∀ {α : Type} (P P' : Proj α) (V : String → Info), L.Is P → L'.Is P' →
      ((V "/s/h.h").mtime > (V "/s/a.o").mtime → NeedsWork P copySite.env.canon V 3) ∧
      ((∀ f ∈ ["/t/a.c", "/t/a.d", "/t/a.o", "/s/h.h"], (V f).exist = true) →
        (∀ f ∈ ["/t/a.c", "/s/h.h"], (V f).mtime ≤ (V "/t/a.d").mtime) → (V "/t/a.d").mtime ≤ (V "/t/a.o").mtime →
        ¬ NeedsWork P' copySite.env.canon V 3) ∧
      ((V "/s/h.h").mtime > (V "/t/a.o").mtime → NeedsWork P' copySite.env.canon V 3) := by
  refine ⟨_, _, rfl, rfl, by decide +kernel, by decide +kernel, ?_⟩
  rintro α P P' V ⟨hreg, hkind, hforce⟩ ⟨hreg', hkind', hforce'⟩
  refine ⟨fun h => ⟨3, .refl, ?_⟩, ?_, fun h => ⟨3, .refl, ?_⟩⟩
  · unfold OutOfDate
    rw [show P.kind 3 = .file by rw [hkind]; rfl]
    refine Or.inr (Or.inr ⟨1, .direct ⟨"/s/h.h", ?_, Or.inl ?_⟩ (Or.inr ?_), ?_⟩)
    · rw [hreg]; decide +kernel
    · rw [hreg]; decide +kernel
    · rw [hkind]; rfl
    · rw [show P.path 1 = "/s/h.h" by rw [Proj.path, hreg]; decide +kernel, show P.path 3 = "/s/a.o" by rw [Proj.path, hreg]; decide +kernel]
      exact h
  · intro hex h1 h2
    refine copy_idle P' V ?_ ?_ ?_ ?_ ?_ hex h1 h2
    · rw [hreg']; decide +kernel
    · simp only [Proj.path, hreg']; decide +kernel
    · simp only [hreg']; decide +kernel
    · simp only [hkind']; decide +kernel
    · simp only [hforce']; decide +kernel
  · unfold OutOfDate
    rw [show P'.kind 3 = .file by rw [hkind']; rfl]
    refine Or.inr (Or.inr ⟨1, .direct ⟨"/s/h.h", ?_, Or.inl ?_⟩ (Or.inr ?_), ?_⟩)
    · rw [hreg']; decide +kernel
    · rw [hreg']; decide +kernel
    · rw [hkind']; rfl
    · rw [show P'.path 1 = "/s/h.h" by rw [Proj.path, hreg']; decide +kernel, show P'.path 3 = "/t/a.o" by rw [Proj.path, hreg']; decide +kernel]
      exact h

/-- The assumptions of `C152_violated` are met: everything is built at time 5, then only the header of the copy is changed, at time 9. -/
example : ∃ (P' : Proj Nat) (V : String → Info),
    (∃ L', linkObjects copySite emptyL ["/t/a.c"] ["/t/a.o"] ["/t/a.d"] demoOpts [] = .ok L' ∧ L'.Is P') ∧
    (V "/t/h.h").mtime > (V "/t/a.o").mtime ∧ ¬ NeedsWork P' copySite.env.canon V 3 := by
  obtain ⟨L, L', h1, h2, _, _, h⟩ := C152_violated
  refine ⟨⟨L'.m.reg, L'.m.kind, L'.force, fun _ => .ok false, fun _ _ => 0, fun _ => []⟩,
    fun p => ⟨true, if p = "/t/h.h" then 9 else 5⟩, ⟨L', h2, rfl, rfl, rfl⟩, by decide, ?_⟩
  exact (h ⟨L.m.reg, L.m.kind, L.force, fun _ => .ok false, fun _ _ => 0, fun _ => []⟩ _ _ ⟨rfl, rfl, rfl⟩ ⟨rfl, rfl, rfl⟩).2.1
    (by intro f _; rfl) (by intro f hf; simp only [List.mem_cons, List.not_mem_nil, or_false] at hf; rcases hf with rfl | rfl <;> decide) (by decide)

end Licant.Cxx
