/-
Building several targets, one after the other or together.  C149.
-/
import Verif.Make.History

set_option autoImplicit false

namespace Licant.Make
open Licant.Py Licant.Core Relation

variable {α : Type} {P : Proj α} {canon : String → String}

/-- `Builds P canon fs t rs fs' t'`: the targets `rs` are built in this order, each successfully; this
begins with the file system `fs` at time `t` and ends with `fs'` at time `t'`.  What is in the file
caches agrees with the files: this is so in a new process (`accurate_nil`). -/
inductive Builds (P : Proj α) (canon : String → String) : FS α → Nat → List Nat → FS α → Nat → Prop
  | nil {fs t} : Builds P canon fs t [] fs t
  | cons {fs t root cache tr s rs fs' t'} (B : Invocation P canon root fs cache) :
      Registered P.reg root → P.kind root ≠ .other → Accurate P fs cache →
      B.Run (t + 1) tr s → Faithful B (t + 1) tr → Productive B tr → s.Succeeded →
      Builds P canon s.fs s.clock rs fs' t' → Builds P canon fs t (root :: rs) fs' t'

theorem Builds.registered {fs fs' : FS α} {t t' : Nat} {rs : List Nat} (h : Builds P canon fs t rs fs' t') :
    ∀ r ∈ rs, Registered P.reg r := by
  induction h with
  | nil => simp
  | cons _ hroot _ _ _ _ _ _ _ ih =>
    intro r hr
    rcases List.mem_cons.1 hr with rfl | hr
    · exact hroot
    · exact ih r hr

/-- every file target of the closure has the contents its command makes of the present files -/
def Made (P : Proj α) (canon : String → String) (fs : FS α) (root : Nat) : Prop :=
  ∀ o, Closure canon P.reg root o → P.kind o = .file →
    contents fs (P.path o) = some (P.cmd o (contents fs))

/-- A build leaves the contents of files that are as they should be, whether it makes them again
or not. -/
theorem Made.keeps (hS : Sound P canon) (hF : Functional P canon) {fs : FS α} {r : Nat}
    (hr : Registered P.reg r) (hm : Made P canon fs r) {root : Nat} (hroot : Registered P.reg root)
    {cache : FileCache} {B : Invocation P canon root fs cache} {clock : Nat} {tr : List (Ev α)} {s : St α}
    (hx : B.Run clock tr s) (hfa : Faithful B clock tr) :
    ∀ o, Closure canon P.reg r o → P.kind o = .file ∨ P.kind o = .source →
      contents s.fs (P.path o) = contents fs (P.path o) := by
  have key : ∀ n, ∀ o, Closure canon P.reg r o → P.kind o = .file ∨ P.kind o = .source →
      (∀ l : List Nat, (∀ x ∈ o :: l, Registered P.reg x) →
        (o :: l).IsChain (TransGen (ObjDep canon P.reg)) → l.length < n) →
      contents s.fs (P.path o) = contents fs (P.path o) := by
    intro n
    induction n with
    | zero =>
      intro o ho _ h
      exact absurd (h [] (by simpa using closure_registered hr ho) (by simp)) (by simp)
    | succ n ih =>
      intro o ho hk h
      have hreg := closure_registered hr ho
      rcases hk with hk | hk
      · by_cases hw : Written B tr o
        · rw [written_content hS hroot hF hx hfa o hw, hm o ho hk]
          congr 1
          refine hF o _ _ ?_
          intro o' hin
          refine ih o' (ReflTransGen.trans ho hin.closure) hin.kind ?_
          intro l hl hch
          have := h (o' :: l) (by
            intro x hx
            rcases List.mem_cons.1 hx with rfl | hx
            · exact hreg
            · exact hl x hx) (List.isChain_cons_cons.2 ⟨hin.trans, hch⟩)
          simpa using this
        · unfold contents
          rw [unwritten hS hroot hx hreg (Or.inl hk) hw]
      · unfold contents
        rw [source_unchanged hS hroot hx hreg hk]
  have hnd : ∀ l : List Nat, l.IsChain (TransGen (ObjDep canon P.reg)) → l.Nodup := by
    intro l hl
    have hp := List.isChain_iff_pairwise.1 hl
    exact hp.imp (fun {a b} h => by rintro rfl; exact hS.acyclic a h)
  intro o ho hk
  refine key (P.reg.targets.length + 1) o ho hk ?_
  intro l hl hch
  have h1 := hnd _ hch
  have hsub : (o :: l) ⊆ P.reg.targets.map (·.2) := by
    intro x hx
    obtain ⟨n, hn⟩ := hl x hx
    exact List.mem_map.2 ⟨_, Dict.mem_of_get hn, rfl⟩
  have := (List.subperm_of_subset h1 hsub).length_le
  simp only [List.length_cons, List.length_map] at this
  omega

theorem Made.build (hS : Sound P canon) (hF : Functional P canon) {fs : FS α} {r : Nat}
    (hr : Registered P.reg r) (hm : Made P canon fs r) {root : Nat} (hroot : Registered P.reg root)
    {cache : FileCache} {B : Invocation P canon root fs cache} {clock : Nat} {tr : List (Ev α)} {s : St α}
    (hx : B.Run clock tr s) (hfa : Faithful B clock tr) : Made P canon s.fs r := by
  intro o ho hk
  have hkeep := hm.keeps hS hF hr hroot hx hfa
  rw [hkeep o ho (Or.inl hk), hm o ho hk]
  congr 1
  refine hF o _ _ ?_
  intro o' hin
  exact (hkeep o' (ReflTransGen.trans ho hin.closure) hin.kind).symm

theorem Builds.made (hS : Sound P canon) (hF : Functional P canon) {fs fs' : FS α} {t t' : Nat} {rs : List Nat}
    (h : Builds P canon fs t rs fs' t') (hH : History P canon fs t) :
    (∀ r ∈ rs, Made P canon fs' r) ∧ (∀ r, Registered P.reg r → Made P canon fs r → Made P canon fs' r) ∧
    (∀ o, Registered P.reg o → P.kind o = .source → fs' (P.path o) = fs (P.path o)) := by
  induction h with
  | nil => exact ⟨by simp, fun _ _ h => h, fun _ _ _ => rfl⟩
  | cons B hroot hk hacc hx hfa hp hs _ ih =>
    obtain ⟨i1, i2, i3⟩ := ih (.build B hH hroot hx hfa)
    refine ⟨?_, ?_, ?_⟩
    · intro r hr
      rcases List.mem_cons.1 hr with rfl | hr
      · exact i2 _ hroot (fun o ho hko => built_contents hS hF hH hroot hk hacc hx hfa hp hs ho hko)
      · exact i1 r hr
    · exact fun r hr hm => i2 r hr (hm.build hS hF hr hroot hx hfa)
    · intro o ho hko
      rw [i3 o ho hko, source_unchanged hS hroot hx ho hko]

/-- C149: the targets `rs` are built one after the other, in this order, after any history.  Then
every file target any of them depends on has the contents that a build from scratch of one target
`root` that depends, directly or not, on all of them gives. -/
theorem C149_one_by_one (hS : Sound P canon) (hF : Functional P canon) {root : Nat}
    (hroot : Registered P.reg root) (hk : P.kind root ≠ .other) {rs : List Nat}
    (hrs : ∀ r ∈ rs, Closure canon P.reg root r)
    {fs fs' fs1 : FS α} {t t' t1 : Nat} (hH : History P canon fs t) (hb : Builds P canon fs t rs fs' t')
    (h1 : ∀ p e, fs1 p = some e → e.mtime ≤ t1) (h1' : Pristine P fs1)
    (hsrc : ∀ o, Closure canon P.reg root o → P.kind o = .source →
      contents fs1 (P.path o) = contents fs (P.path o))
    {cache1 : FileCache} (hacc1 : Accurate P fs1 cache1) {B1 : Invocation P canon root fs1 cache1}
    {tr1 : List (Ev α)} {s1 : St α} (hx1 : B1.Run (t1 + 1) tr1 s1) (hfa1 : Faithful B1 (t1 + 1) tr1)
    (hp1 : Productive B1 tr1) (hs1 : s1.Succeeded) :
    ∀ r ∈ rs, ∀ o, Closure canon P.reg r o → P.kind o = .file →
      contents fs' (P.path o) = contents s1.fs (P.path o) := by
  obtain ⟨b1, _, b3⟩ := hb.made hS hF hH
  intro r hr
  have hcl : ∀ o, Closure canon P.reg r o → Closure canon P.reg root o :=
    fun o ho => ReflTransGen.trans (hrs r hr) ho
  have hrr : Registered P.reg r := closure_registered hroot (hrs r hr)
  refine contents_unique hS hF (b1 r hr) ?_ ?_ hrr
  · exact fun o ho hko => built_contents hS hF (History.checkout (canon := canon) h1 h1') hroot hk hacc1 hx1
      hfa1 hp1 hs1 (hcl o ho) hko
  · intro o ho hko
    have hro := closure_registered hrr ho
    have := hsrc o (hcl o ho) hko
    unfold contents at this ⊢
    rw [b3 o hro hko, source_unchanged hS hroot hx1 hro hko, this]

/-- C149: and so the order does not matter. -/
theorem C149_any_order (hS : Sound P canon) (hF : Functional P canon) {rs rs' : List Nat}
    {fs fs1 fs' fs1' : FS α} {t t1 t' t1' : Nat} (hH : History P canon fs t) (hH1 : History P canon fs1 t1)
    (hb : Builds P canon fs t rs fs' t') (hb1 : Builds P canon fs1 t1 rs' fs1' t1')
    (hsrc : ∀ o, Registered P.reg o → P.kind o = .source →
      contents fs (P.path o) = contents fs1 (P.path o)) :
    ∀ r ∈ rs, r ∈ rs' → ∀ o, Closure canon P.reg r o → P.kind o = .file →
      contents fs' (P.path o) = contents fs1' (P.path o) := by
  have hreg := hb.registered
  obtain ⟨b1, _, b3⟩ := hb.made hS hF hH
  obtain ⟨c1, _, c3⟩ := hb1.made hS hF hH1
  intro r hr hr'
  refine contents_unique hS hF (b1 r hr) (c1 r hr') ?_ (hreg r hr)
  intro o ho hko
  have hro := closure_registered (hreg r hr) ho
  have := hsrc o hro hko
  unfold contents at this ⊢
  rw [b3 o hro hko, c3 o hro hko, this]

/-! ### a concrete case: first `d/a.o`, then `d/app` -/

def demoBa : Invocation demo id 2 demoFs [] := .of (lim := 10) (lim' := 10) (n := 1) _ demo_all rfl rfl rfl

def demoTra : List (Ev Nat) :=
  [.sched (.start 0 0), .sched (.finish 0 0 .ok), .sched (.start 0 1), .sched (.finish 0 1 .ok),
   .sched (.start 0 2), .tick, .write 2 15, .sched (.finish 0 2 .ok)]

def demoSa : St Nat := (runEvs demo demoBa.need demoBa.objs demoBa.g (demoBa.start 7) demoTra).getD (demoBa.start 7)

def demoBb : Invocation demo id 3 demoSa.fs [] := .of (lim := 10) (lim' := 10) (n := 1) _ demo_all rfl rfl rfl

def demoTrb : List (Ev Nat) :=
  [.sched (.start 0 0), .sched (.finish 0 0 .ok), .sched (.start 0 1), .sched (.finish 0 1 .ok),
   .sched (.start 0 2), .sched (.finish 0 2 .ok), .sched (.start 0 3), .write 3 115, .sched (.finish 0 3 .ok)]

/-- Non-vacuity of C149: the two files are made one after the other; the result is that of the build
of `all`. -/
example : ∃ fs' t', History demo id demoFs 6 ∧ Builds demo id demoFs 6 [2, 3] fs' t' ∧
    contents fs' "d/app" = contents demoS.fs "d/app" := by
  have hpr : Pristine demo demoFs := by
    intro o ho hk
    have := demo_reg_iff.1 ho
    have : o = 0 ∨ o = 1 ∨ o = 2 ∨ o = 3 ∨ o = 4 := by omega
    rcases this with rfl | rfl | rfl | rfl | rfl <;> first | rfl | cases hk
  have hold : ∀ p e, demoFs p = some e → e.mtime ≤ 6 := fun p e h => Nat.le_of_lt_succ (demo_old p e h)
  have hb : Builds demo id demoFs 6 [2, 3] _ _ :=
    .cons demoBa (demo_reg_iff.2 (by decide)) (by decide) (accurate_nil _ _)
      (show demoBa.Run 7 demoTra demoSa from run_iff.2 rfl) (faithful_of (by decide +kernel))
      (productive_of (by decide +kernel)) ⟨rfl, rfl⟩
      (.cons demoBb (demo_reg_iff.2 (by decide)) (by decide) (accurate_nil _ _)
        (show demoBb.Run (demoSa.clock + 1) demoTrb _ from run_iff.2 rfl) (faithful_of (by decide +kernel))
        (productive_of (by decide +kernel)) ⟨rfl, rfl⟩ .nil)
  refine ⟨_, _, .checkout hold hpr, hb, ?_⟩
  exact C149_one_by_one demo_sound demo_functional demo_root (by decide)
    (by
      intro r hr
      have h43 : ObjDep id demo.reg 4 3 := demo_dep.2 (by decide)
      rcases List.mem_cons.1 hr with rfl | hr
      · exact .tail (.single h43) (demo_dep.2 (by decide))
      · rw [List.mem_singleton.1 hr]; exact .single h43)
    (.checkout hold hpr) hb hold hpr (fun _ _ _ => rfl) (accurate_nil _ _) demoS_run
    (faithful_of (by decide +kernel)) (productive_of (by decide +kernel)) ⟨rfl, rfl⟩ 3 (by simp) 3 .refl rfl

end Licant.Make
