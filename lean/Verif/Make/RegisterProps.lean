/-
Properties of the registration functions of licant/make.py: C40, C42, C43.
-/
import Verif.Make.Register
import Verif.Core.Registry
import Mathlib.Data.List.Induction

set_option autoImplicit false

namespace Licant.Make
open Licant.Py Licant.Core Relation

/-! ### specification -/

/-- the `i`-th ancestor directory of a path (0: its parent) -/
def anc (p : String) (i : Nat) : String := parent^[i + 1] p

theorem anc_zero (p : String) : anc p 0 = parent p := rfl
theorem anc_parent (p : String) (i : Nat) : anc (parent p) i = anc p (i + 1) := rfl
theorem parent_anc (p : String) (i : Nat) : parent (anc p i) = anc p (i + 1) := by
  unfold anc
  rw [Function.iterate_succ_apply' parent (i + 1)]

/-- the absolute path with the given components -/
def absString (cs : List (List Char)) : String := String.ofList (Path.absPath cs)

/-- `parent` is what it should be: the ancestors of `/c1/.../cn` are its prefixes. -/
theorem anc_absString (cs ds : List (List Char)) (h : ∀ c ∈ cs ++ ds, Path.Plain c) (hne : ds ≠ []) :
    anc (absString (cs ++ ds)) (ds.length - 1) = absString cs := by
  induction ds using List.reverseRecOn with
  | nil => exact absurd rfl hne
  | append_singleton ds d ih =>
    have hp : parent (absString (cs ++ (ds ++ [d]))) = absString (cs ++ ds) := by
      unfold parent absString
      rw [String.toList_ofList, ← List.append_assoc, Path.parent_absPath]
      · intro x hx; exact h x (by simp only [List.mem_append] at hx ⊢; tauto)
      · exact h d (by simp)
    by_cases hds : ds = []
    · subst hds
      simpa [anc] using hp
    · have hl : (ds ++ [d]).length - 1 = (ds.length - 1) + 1 := by
        have := List.length_pos_iff.2 hds
        simp; omega
      rw [hl, ← anc_parent, hp]
      exact ih (fun c hc => h c (by simp only [List.mem_append] at hc ⊢; tauto)) hds

/-- `c'` is `c` with more targets: what could be looked up before is found unchanged. -/
structure Extends (canon : String → String) (c c' : MReg) : Prop where
  next : c.reg.next ≤ c'.reg.next
  obj : ∀ o, o < c.reg.next → c'.reg.obj o = c.reg.obj o ∧ c'.kind o = c.kind o
  names : ∀ n o, Resolves canon c.reg n o → Resolves canon c'.reg n o

/-- Object `o` of the core is the target of the directory `q`; it depends on the parent directory of
`q` if that is missing, otherwise on nothing. -/
def IsDirTarget (E : Env) (c : MReg) (q : String) (o : Nat) : Prop :=
  c.kind o = .dir ∧ (c.reg.obj o).tgt = E.canon q ∧
    (c.reg.obj o).deps = if E.ex (parent q) then [] else [parent q]

/-! ### lemmas -/

variable {E : Env} {lim : Nat}

theorem Extends.refl {canon : String → String} (c : MReg) : Extends canon c c :=
  ⟨le_refl _, fun _ _ => ⟨rfl, rfl⟩, fun _ _ h => h⟩

theorem Extends.trans {canon : String → String} {c c' c'' : MReg} (h : Extends canon c c')
    (h' : Extends canon c' c'') : Extends canon c c'' :=
  ⟨le_trans h.next h'.next, fun o ho => by
    have h1 := h.obj o ho
    have h2 := h'.obj o (lt_of_lt_of_le ho h.next)
    exact ⟨h2.1.trans h1.1, h2.2.trans h1.2⟩, fun n o hr => h'.names n o (h.names n o hr)⟩

theorem has_extends {canon : String → String} (hi : Idempotent canon) (c : MReg) (n : String) :
    Extends canon c (c.has canon n).1 ∧ (c.has canon n).1.reg.next = c.reg.next ∧
    (c.has canon n).1.reg.obj = c.reg.obj ∧ (c.has canon n).1.kind = c.kind ∧
    (∀ m o, Resolves canon (c.has canon n).1.reg m o ↔ Resolves canon c.reg m o) := by
  have hr : ∀ m o, Resolves canon (c.has canon n).1.reg m o ↔ Resolves canon c.reg m o := by
    intro m o
    rw [← get_ok, ← get_ok]
    unfold MReg.has
    rw [has_get hi]
  have hn : (c.has canon n).1.reg.next = c.reg.next ∧ (c.has canon n).1.reg.obj = c.reg.obj := by
    unfold MReg.has Core.has
    simp only
    split
    · exact ⟨rfl, rfl⟩
    · split <;> exact ⟨rfl, rfl⟩
  refine ⟨⟨by rw [hn.1], fun o _ => ⟨by rw [hn.2], rfl⟩, fun m o h => (hr m o).2 h⟩, hn.1, hn.2, rfl, hr⟩

theorem has_true {canon : String → String} {c : MReg} {n : String} :
    (c.has canon n).2 = true ↔ ∃ o, Resolves canon c.reg n o := by
  unfold MReg.has
  simp only [(C19_lookup canon c.reg n).2.2.2, get_ok]

theorem has_false {canon : String → String} {c : MReg} {n : String} (h : (c.has canon n).2 = false) :
    (c.has canon n).1 = c ∧ c.reg.targets.get n = none ∧ c.reg.targets.get (canon n) = none := by
  have hno : ∀ o, ¬ Resolves canon c.reg n o := by
    intro o ho
    rw [has_true.2 ⟨o, ho⟩] at h; cases h
  have h1 : c.reg.targets.get n = none := by
    cases hg : c.reg.targets.get n with
    | none => rfl
    | some o => exact absurd (Or.inl hg) (hno o)
  have h2 : c.reg.targets.get (canon n) = none := by
    cases hg : c.reg.targets.get (canon n) with
    | none => rfl
    | some o => exact absurd (Or.inr ⟨h1, hg⟩) (hno o)
  refine ⟨?_, h1, h2⟩
  unfold MReg.has Core.has
  simp [Dict.has, h1, h2]

/-- adding a target with a canonical name: only lookups of that path change -/
theorem add_resolves {canon : String → String} {c : MReg} {ob : Obj} {k : Kind} {n : String} {o : Nat}
    (ht : canon ob.tgt = ob.tgt) (hn : canon n ≠ ob.tgt) :
    Resolves canon (c.add ob k).reg n o ↔ Resolves canon c.reg n o := by
  have hn' : ob.tgt ≠ n := by
    intro e
    rw [← e] at hn
    exact hn ht
  simp only [Resolves, MReg.add, Core.add]
  rw [Dict.get_set_ne _ _ hn', Dict.get_set_ne _ _ (Ne.symm hn)]

theorem add_self {canon : String → String} {c : MReg} {ob : Obj} {k : Kind} :
    Resolves canon (c.add ob k).reg ob.tgt c.reg.next := by
  left
  simp [MReg.add, Core.add]

theorem add_extends {canon : String → String} {c : MReg} {ob : Obj} {k : Kind}
    (ht : canon ob.tgt = ob.tgt) (hfree : c.reg.targets.get ob.tgt = none) :
    Extends canon c (c.add ob k) := by
  refine ⟨by simp [MReg.add, Core.add], ?_, ?_⟩
  · intro o ho
    have : o ≠ c.reg.next := by omega
    simp [MReg.add, Core.add, this]
  · intro n o h
    by_cases hn : canon n = ob.tgt
    · rcases h with h | ⟨h, h'⟩
      · by_cases hnn : n = ob.tgt
        · rw [hnn, hfree] at h; cases h
        · left
          simp only [MReg.add, Core.add]
          rw [Dict.get_set_ne _ _ (Ne.symm hnn)]
          exact h
      · rw [hn, hfree] at h'; cases h'
    · exact (add_resolves ht hn).2 h

theorem fileInit_ok {fuel : Nat} {d d' : MReg} {tgt t : String} {deps ds : List String}
    (h : fileInit E fuel d tgt deps false = .ok (d', t, ds)) :
    t = E.canon tgt ∧ ds = globs E deps := by
  cases fuel with
  | zero => cases h
  | succ fuel =>
    simp only [fileInit, Bool.false_and, Bool.false_eq_true, if_false] at h
    split at h
    · cases h
    · simp only [Except.ok.injEq, Prod.mk.injEq] at h
      exact ⟨h.2.1.symm, h.2.2.symm⟩

theorem globs_id {deps : List String} (h : ∀ d ∈ deps, '*' ∉ d.toList) : globs E deps = deps := by
  unfold globs
  induction deps with
  | nil => rfl
  | cons d ds ih =>
    rw [List.flatMap_cons, ih (fun x hx => h x (by simp [hx])), if_neg (h d (by simp))]
    rfl

theorem globs_append (a b : List String) : globs E (a ++ b) = globs E a ++ globs E b := by
  simp [globs]

theorem addFileC_ok {w w' : World} {tgt : String} {deps : List String} {k : Kind} {o : Nat}
    (h : addFileC E lim w tgt deps k = .ok (w', o)) :
    w'.own = w.own.add (makeObj (E.canon tgt) (globs E deps)) k ∧ o = w.own.reg.next := by
  unfold addFileC at h
  split at h
  · cases h
  · rename_i d t ds hf
    obtain ⟨rfl, rfl⟩ := fileInit_ok hf
    simp only [Except.ok.injEq, Prod.mk.injEq] at h
    obtain ⟨rfl, rfl⟩ := h
    exact ⟨rfl, rfl⟩

/-- names lead to objects that have been made -/
def Wf (canon : String → String) (c : MReg) : Prop := ∀ n o, Resolves canon c.reg n o → o < c.reg.next

theorem add_new {canon : String → String} {c : MReg} {ob : Obj} {k : Kind} {n : String} {o : Nat}
    (ht : canon ob.tgt = ob.tgt) (h : Resolves canon (c.add ob k).reg n o) :
    Resolves canon c.reg n o ∨ (o = c.reg.next ∧ canon n = ob.tgt) := by
  by_cases hn : canon n = ob.tgt
  · rcases h with h | ⟨h, h'⟩
    · by_cases hnn : n = ob.tgt
      · subst hnn
        simp only [MReg.add, Core.add, Dict.get_set_self, Option.some.injEq] at h
        exact Or.inr ⟨h.symm, hn⟩
      · simp only [MReg.add, Core.add] at h
        rw [Dict.get_set_ne _ _ (Ne.symm hnn)] at h
        exact Or.inl (Or.inl h)
    · rw [hn] at h'
      simp only [MReg.add, Core.add, Dict.get_set_self, Option.some.injEq] at h'
      exact Or.inr ⟨h'.symm, hn⟩
  · exact Or.inl ((add_resolves ht hn).1 h)

/-- `q` is an ancestor of `path`; it and all ancestors between them are missing -/
def MissingAnc (E : Env) (path : String) (i : Nat) : Prop := ∀ j ≤ i, E.ex (anc path j) = false

theorem isDirTarget_congr {c c' : MReg} {q : String} {o : Nat} (h1 : c'.kind o = c.kind o)
    (h2 : c'.reg.obj o = c.reg.obj o) (h : IsDirTarget E c q o) : IsDirTarget E c' q o := by
  unfold IsDirTarget at *
  rw [h1, h2]
  exact h

/-- What `dirkeep` does to the core. -/
theorem dirkeepC_ok (hi : Idempotent E.canon) : ∀ (fuel : Nat) (w w' : World) (path : String)
    (deps : List String), (∀ i, '*' ∉ (anc path i).toList) →
    (∀ i j, MissingAnc E path i → MissingAnc E path j → E.canon (anc path i) = E.canon (anc path j) →
      i = j) →
    Wf E.canon w.own →
    dirkeepC E lim fuel w path = .ok (w', deps) →
    deps = (if E.ex (parent path) then [] else [parent path]) ∧
    Extends E.canon w.own w'.own ∧
    (∀ i, MissingAnc E path i → ∃ o, Resolves E.canon w'.own.reg (anc path i) o ∧
        (w.own.reg.next ≤ o → IsDirTarget E w'.own (anc path i) o)) ∧
    (∀ o, w.own.reg.next ≤ o → o < w'.own.reg.next → ∃ i, MissingAnc E path i ∧
      (w'.own.reg.obj o).tgt = E.canon (anc path i) ∧ IsDirTarget E w'.own (anc path i) o) ∧
    (∀ n o, Resolves E.canon w'.own.reg n o → Resolves E.canon w.own.reg n o ∨
      (w.own.reg.next ≤ o ∧ o < w'.own.reg.next ∧ E.canon n = (w'.own.reg.obj o).tgt)) := by
  intro fuel
  induction fuel with
  | zero => intro w w' path deps _ _ _ h; cases h
  | succ fuel ih =>
    intro w w' path deps hstar hdist hwf h
    unfold dirkeepC at h
    split at h
    · rename_i hex
      have up : ∀ i, MissingAnc E (parent path) i → MissingAnc E path (i + 1) := by
        intro i hm j hj
        cases j with
        | zero => exact hex
        | succ j => exact hm j (by omega)
      have down : ∀ i, MissingAnc E path (i + 1) → MissingAnc E (parent path) i :=
        fun i hm j hj => hm (j + 1) (by omega)
      have miss0 : MissingAnc E path 0 := by
        intro j hj
        obtain rfl : j = 0 := by omega
        exact hex
      split at h
      · cases h
      · rename_i w1 deps1 hd
        obtain ⟨hdeps, hext, hanc, hnew, hres⟩ := ih w w1 (parent path) deps1
          (fun i => hstar (i + 1)) (fun i j h1 h2 e => by
            have := hdist (i + 1) (j + 1) (up i h1) (up j h2) e
            omega) hwf hd
        obtain ⟨hx, hxn, hxo, hxk, hxr⟩ := has_extends hi w1.own (parent path)
        simp only at h
        split at h
        · -- already there
          rename_i hh
          simp only [Except.ok.injEq, Prod.mk.injEq] at h
          obtain ⟨rfl, rfl⟩ := h
          simp only
          refine ⟨by rw [hex]; rfl, hext.trans hx, ?_, ?_, ?_⟩
          · intro i hmiss
            cases i with
            | zero =>
              obtain ⟨o, ho⟩ := has_true.1 hh
              refine ⟨o, (hxr _ _).2 ho, ?_⟩
              intro hge
              exfalso
              rcases hres _ _ ho with h1 | ⟨_, hlt, hc⟩
              · exact absurd (hwf _ _ h1) (by omega)
              · obtain ⟨i, hm, ht, _⟩ := hnew o hge hlt
                rw [ht] at hc
                have := hdist 0 (i + 1) miss0 (up i hm) hc
                omega
            | succ i =>
              obtain ⟨o, ho, hdir⟩ := hanc i (down i hmiss)
              exact ⟨o, (hxr _ _).2 ho, fun hge =>
                isDirTarget_congr (by rw [hxk]) (by rw [hxo]) (hdir hge)⟩
          · intro o hge hlt
            rw [hxn] at hlt
            obtain ⟨i, hm, ht, hdir⟩ := hnew o hge hlt
            exact ⟨i + 1, up i hm, by rw [hxo]; exact ht, isDirTarget_congr (by rw [hxk]) (by rw [hxo]) hdir⟩
          · intro n o hr
            rcases hres n o ((hxr n o).1 hr) with h1 | ⟨h1, h2, h3⟩
            · exact Or.inl h1
            · exact Or.inr ⟨h1, by rw [hxn]; exact h2, by rw [hxo]; exact h3⟩
        · -- a new directory target
          rename_i hh
          have hh : (w1.own.has E.canon (parent path)).2 = false := by simpa using hh
          obtain ⟨he, hf1, hf2⟩ := has_false hh
          rw [he] at h
          split at h
          · cases h
          · rename_i w2 o2 hm
            simp only [Except.ok.injEq, Prod.mk.injEq] at h
            obtain ⟨rfl, rfl⟩ := h
            obtain ⟨hown, rfl⟩ := addFileC_ok hm
            have hdeps1 : globs E deps1 = if E.ex (parent (parent path)) then [] else [parent (parent path)] := by
              rw [hdeps, globs_id]
              intro d hd
              split at hd
              · cases hd
              · rw [List.mem_singleton] at hd
                rw [hd]; exact hstar 1
            have hcan : E.canon (E.canon (parent path)) = E.canon (parent path) := hi _
            have hext2 : Extends E.canon w1.own w2.own := by
              rw [hown]
              exact add_extends (by exact hcan) hf2
            have hself : IsDirTarget E w2.own (parent path) w1.own.reg.next := by
              rw [hown]
              refine ⟨?_, ?_, ?_⟩
              · simp [MReg.add]
              · simp [MReg.add, Core.add, makeObj]
              · simp only [MReg.add, Core.add, makeObj, if_true]
                exact hdeps1
            have hnext : w2.own.reg.next = w1.own.reg.next + 1 := by rw [hown]; rfl
            have hselfr : Resolves E.canon w2.own.reg (parent path) w1.own.reg.next := by
              rw [hown]
              simp only [Resolves, MReg.add, Core.add, makeObj]
              by_cases hn : parent path = E.canon (parent path)
              · left; rw [← hn]; simp
              · right
                rw [Dict.get_set_ne _ _ (Ne.symm hn)]
                exact ⟨hf1, by simp⟩
            refine ⟨by rw [hex]; rfl, hext.trans hext2, ?_, ?_, ?_⟩
            · intro i hmiss
              cases i with
              | zero => exact ⟨_, hselfr, fun _ => hself⟩
              | succ i =>
                obtain ⟨o, ho, hdir⟩ := hanc i (down i hmiss)
                refine ⟨o, hext2.names _ _ ho, fun hge => ?_⟩
                have hlt : o < w1.own.reg.next := by
                  rcases hres _ _ ho with h1 | ⟨_, h2, _⟩
                  · exact absurd (hwf _ _ h1) (by omega)
                  · exact h2
                exact isDirTarget_congr (hext2.obj o hlt).2 (hext2.obj o hlt).1 (hdir hge)
            · intro o hge hlt
              by_cases ho : o < w1.own.reg.next
              · obtain ⟨i, hm, ht, hdir⟩ := hnew o hge ho
                exact ⟨i + 1, up i hm, by rw [(hext2.obj o ho).1]; exact ht,
                  isDirTarget_congr (hext2.obj o ho).2 (hext2.obj o ho).1 hdir⟩
              · obtain rfl : o = w1.own.reg.next := by omega
                exact ⟨0, miss0, hself.2.1, hself⟩
            · intro n o hr
              rw [hown] at hr
              rcases add_new (by exact hcan) hr with h1 | ⟨rfl, h2⟩
              · rcases hres n o h1 with h1 | ⟨h1, h2, h3⟩
                · exact Or.inl h1
                · exact Or.inr ⟨h1, by rw [hnext]; exact Nat.lt_succ_of_lt h2, by rw [(hext2.obj o h2).1]; exact h3⟩
              · refine Or.inr ⟨hext.next, by rw [hnext]; exact Nat.lt_succ_self _, ?_⟩
                rw [hself.2.1]
                exact h2
    · rename_i hex
      have hex : E.ex (parent path) = true := by simpa using hex
      simp only [Except.ok.injEq, Prod.mk.injEq] at h
      obtain ⟨rfl, rfl⟩ := h
      refine ⟨by rw [hex]; rfl, .refl _, ?_, ?_, fun n o hr => Or.inl hr⟩
      · intro i hm
        have := hm 0 (by omega)
        rw [anc_zero, hex] at this; cases this
      · intro o h1 h2; omega

/-! ### C40 -/

/-- How paths, links and `exists` behave as long as there are no dangling links and the working directory exists
(`Realises.sane` in Make/Tree.lean proves it for file trees with symbolic links). -/
structure Env.Sane (E : Env) : Prop where
  idem : Idempotent E.canon
  home : ∀ p, E.home (E.home p) = E.home p
  roots : ∀ p, Path.Root p.toList → E.ex p = true
  exCanon : ∀ p, E.ex p = true → E.ex (E.canon p) = true
  /-- directories: `anc p i` is in normal form -/
  exCanonAnc : ∀ p i, E.ex (E.canon (anc p i)) = E.ex (anc p i)
  /-- existing files are in existing directories -/
  exParent : ∀ p, E.ex p = true → E.ex (parent (E.canon p)) = true
  /-- the parent of an existing directory exists -/
  up : ∀ p i, E.ex (anc p i) = true → E.ex (anc p (i + 1)) = true
  /-- the canonical path of a missing directory is made from that of its parent directory -/
  canonParent : ∀ p i, E.ex (anc p i) = false → parent (E.canon (anc p i)) = E.canon (anc p (i + 1))

theorem Env.Sane.exCanonParent {E : Env} (hE : E.Sane) (p : String) : E.ex (E.canon (parent p)) = E.ex (parent p) :=
  hE.exCanonAnc p 0

theorem toList_iterate (p : String) (k : Nat) : (parent^[k] p).toList = Path.parent^[k] p.toList := by
  induction k with
  | zero => rfl
  | succ k ih => rw [Function.iterate_succ_apply', Function.iterate_succ_apply', ← ih]; simp [parent]

theorem nostar_anc {p : String} (h : '*' ∉ p.toList) (i : Nat) : '*' ∉ (anc p i).toList := by
  unfold anc
  rw [toList_iterate]
  generalize i + 1 = k
  induction k with
  | zero => exact h
  | succ k ih =>
    rw [Function.iterate_succ_apply']
    intro hm
    rcases Path.mem_parent hm with h | h | h
    · exact ih h
    · exact absurd h (by decide)
    · exact absurd h (by decide)

theorem missing_anc (hE : E.Sane) {p : String} {i : Nat} (h : E.ex (anc p i) = false) :
    MissingAnc E p i := by
  have key : ∀ d j, E.ex (anc p j) = true → E.ex (anc p (j + d)) = true := by
    intro d
    induction d with
    | zero => intro j h; exact h
    | succ d ih => intro j h; exact hE.up p (j + d) (ih j h)
  intro j hj
  cases hx : E.ex (anc p j) with
  | false => rfl
  | true =>
    have := key (i - j) j hx
    rw [show j + (i - j) = i by omega, h] at this
    cases this

theorem missing_dist (hE : E.Sane) {p : String} {i j : Nat} (hi : MissingAnc E p i)
    (hj : MissingAnc E p j) (h : E.canon (anc p i) = E.canon (anc p j)) : i = j := by
  have key : ∀ i d, MissingAnc E p (i + d) → E.canon (anc p i) = E.canon (anc p (i + d)) → d = 0 := by
    intro i d hm h
    by_contra hd
    have hit : ∀ k, k ≤ d → parent^[k] (E.canon (anc p i)) = E.canon (anc p (i + k)) := by
      intro k
      induction k with
      | zero => intro _; rfl
      | succ k ih =>
        intro hk
        rw [Function.iterate_succ_apply', ih (by omega), hE.canonParent p (i + k) (hm _ (by omega))]
        rfl
    have hc := Path.no_cycle d (E.canon (anc p i)).toList (by
      intro k hk hr
      rw [← toList_iterate, hit (k + 1) (by omega)] at hr
      have := hE.roots _ hr
      rw [hE.exCanonAnc, hm _ (by omega)] at this
      cases this)
    rw [← toList_iterate, hit d (le_refl _), ← h] at hc
    omega
  rcases Nat.le_total i j with hij | hij
  · have := key i (j - i) (by rw [show i + (j - i) = j by omega]; exact hj)
      (by rw [show i + (j - i) = j by omega]; exact h)
    omega
  · have := key j (i - j) (by rw [show j + (i - j) = i by omega]; exact hi)
      (by rw [show j + (i - j) = i by omega]; exact h.symm)
    omega

/-- What registering the file target `p` did to the core `c`, giving `c'` and the object `o`; `ds` are the
dependencies given by the caller. -/
structure FileAdded (E : Env) (c c' : MReg) (p : String) (o : Nat) (ds : List String) : Prop where
  /-- the new target -/
  target : c'.kind o = .file ∧ (c'.reg.obj o).tgt = E.canon p ∧ Resolves E.canon c'.reg (E.canon p) o
  new : c.reg.next ≤ o
  /-- it depends on what the caller says and on its directory if that is missing -/
  deps : ∀ d, d ∈ (c'.reg.obj o).deps ↔ d ∈ ds ∨ (E.ex (parent p) = false ∧ d = parent p)
  /-- every missing ancestor directory is registered; if it was not registered before, it is a
  directory target that depends on its own parent if that is missing -/
  missing : ∀ i, E.ex (anc p i) = false → ∃ b, Resolves E.canon c'.reg (anc p i) b ∧
    (c.reg.next ≤ b → IsDirTarget E c' (anc p i) b)
  /-- existing directories are not registered -/
  only : ∀ b, c.reg.next ≤ b → b < c'.reg.next → c'.kind b = .dir →
    ∃ i, E.ex (anc p i) = false ∧ IsDirTarget E c' (anc p i) b
  /-- everything else stays -/
  names : ∀ n b, E.canon n ≠ E.canon p → Resolves E.canon c.reg n b → Resolves E.canon c'.reg n b
  obj : ∀ b, b < c.reg.next → c'.reg.obj b = c.reg.obj b ∧ c'.kind b = c.kind b

theorem resolves_lt_of {c c' : MReg} (hwf : Wf E.canon c) (hx : Extends E.canon c c') {n : String} {o : Nat}
    (h : Resolves E.canon c.reg n o) : o < c'.reg.next := lt_of_lt_of_le (hwf n o h) hx.next

/-- the common part of `ftarget`, `touch` and `copy` -/
theorem fileAdded_of (hE : E.Sane) {w w1 w2 : World} {p : String} {deps ds : List String}
    {w' : World} {o : Nat} {fuel : Nat} (hwf : Wf E.canon w.own) (hstar : '*' ∉ p.toList)
    (hself : ∀ i, E.ex (anc p i) = false → E.canon (anc p i) ≠ E.canon p)
    (h1 : dirkeepC E lim fuel w p = .ok (w1, deps)) (h12 : Extends E.canon w1.own w2.own)
    (hk : ∀ b, w1.own.reg.next ≤ b → b < w2.own.reg.next → w2.own.kind b ≠ .dir)
    {all : List String} (hall : ∀ d, d ∈ globs E all ↔ d ∈ ds ∨ d ∈ deps)
    (h2 : addFileC E lim w2 p all .file = .ok (w', o)) :
    FileAdded E w.own w'.own p o ds := by
  obtain ⟨hdeps, hext, hanc, hnew, hres⟩ := dirkeepC_ok hE.idem fuel w w1 p deps (nostar_anc hstar)
    (fun i j h1 h2 e => missing_dist hE h1 h2 e) hwf h1
  obtain ⟨hown, rfl⟩ := addFileC_ok h2
  have hcan : E.canon (E.canon p) = E.canon p := hE.idem p
  have hobj : ∀ b, b < w2.own.reg.next → w'.own.reg.obj b = w2.own.reg.obj b ∧ w'.own.kind b = w2.own.kind b := by
    intro b hb
    have : b ≠ w2.own.reg.next := by omega
    rw [hown]
    simp [MReg.add, Core.add, this]
  have hnames : ∀ n b, E.canon n ≠ E.canon p → Resolves E.canon w2.own.reg n b → Resolves E.canon w'.own.reg n b := by
    intro n b hn hb
    rw [hown]
    exact (add_resolves (by exact hcan) hn).2 hb
  have h02 := hext.trans h12
  refine ⟨⟨?_, ?_, ?_⟩, h02.next, ?_, ?_, ?_, ?_, ?_⟩
  · rw [hown]; simp [MReg.add]
  · rw [hown]; simp [MReg.add, Core.add, makeObj]
  · rw [hown]; exact add_self (ob := makeObj (E.canon p) (globs E all))
  · intro d
    have : (w'.own.reg.obj w2.own.reg.next).deps = globs E all := by
      rw [hown]; simp [MReg.add, Core.add, makeObj]
    rw [this, hall, hdeps]
    cases hex : E.ex (parent p) <;> simp
  · intro i hi
    obtain ⟨b, hb, hdir⟩ := hanc i (missing_anc hE hi)
    refine ⟨b, hnames _ _ (hself i hi) (h12.names _ _ hb), fun hge => ?_⟩
    have hlt : b < w1.own.reg.next := by
      rcases hres _ _ hb with h | ⟨_, h, _⟩
      · exact absurd (hwf _ _ h) (by omega)
      · exact h
    have hb2 := h12.obj b hlt
    have hb3 := hobj b (lt_of_lt_of_le hlt h12.next)
    exact isDirTarget_congr (hb3.2.trans hb2.2) (hb3.1.trans hb2.1) (hdir hge)
  · intro b hge hlt hkd
    have hnext : w'.own.reg.next = w2.own.reg.next + 1 := by rw [hown]; rfl
    have hb : b ≠ w2.own.reg.next := by
      rintro rfl
      rw [hown] at hkd
      simp [MReg.add] at hkd
    have hlt2 : b < w2.own.reg.next := by omega
    have hb3 := hobj b hlt2
    by_cases hb1 : b < w1.own.reg.next
    · obtain ⟨i, hm, _, hdir⟩ := hnew b hge hb1
      have hb2 := h12.obj b hb1
      exact ⟨i, hm i (le_refl _), isDirTarget_congr (hb3.2.trans hb2.2) (hb3.1.trans hb2.1) hdir⟩
    · exact absurd (hb3.2 ▸ hkd) (hk b (by omega) hlt2)
  · intro n b hn hb
    exact hnames n b hn (h02.names n b hb)
  · intro b hb
    have h1 := h02.obj b hb
    have h2 := hobj b (lt_of_lt_of_le hb h02.next)
    exact ⟨h2.1.trans h1.1, h2.2.trans h1.2⟩

theorem wf_add {c : MReg} {ob : Obj} {k : Kind} (hwf : Wf E.canon c)
    (ht : E.canon ob.tgt = ob.tgt) : Wf E.canon (c.add ob k) := by
  intro n o h
  show o < c.reg.next + 1
  rcases add_new ht h with h | ⟨rfl, _⟩
  · exact Nat.lt_succ_of_lt (hwf n o h)
  · exact Nat.lt_succ_self _

theorem wf_dirkeep (hE : E.Sane) {w w1 : World} {p : String} {deps : List String} {fuel : Nat}
    (hwf : Wf E.canon w.own) (hstar : '*' ∉ p.toList)
    (h1 : dirkeepC E lim fuel w p = .ok (w1, deps)) : Wf E.canon w1.own := by
  obtain ⟨_, hext, _, _, hres⟩ := dirkeepC_ok hE.idem fuel w w1 p deps (nostar_anc hstar)
    (fun i j h1 h2 e => missing_dist hE h1 h2 e) hwf h1
  intro n o h
  rcases hres n o h with h | ⟨_, h, _⟩
  · exact lt_of_lt_of_le (hwf n o h) hext.next
  · exact h

/-- what `MakeCore.source` does -/
theorem sourceC_ok (hE : E.Sane) {w w' : World} {src : String} {o : Nat} (hwf : Wf E.canon w.own)
    (hh : E.home src = src) (h : sourceC E lim w src = .ok (w', o)) :
    Extends E.canon w.own w'.own ∧ Wf E.canon w'.own ∧ Resolves E.canon w'.own.reg src o ∧
    (∀ b, w.own.reg.next ≤ b → b < w'.own.reg.next → b = o) ∧
    (w.own.reg.next ≤ o → w'.own.kind o = .source ∧ w'.own.reg.obj o = makeObj (E.canon src) [] ∧
      ∀ o', ¬ Resolves E.canon w.own.reg src o') ∧
    ((∃ o', Resolves E.canon w.own.reg src o') → ∀ n b, Resolves E.canon w'.own.reg n b ↔
      Resolves E.canon w.own.reg n b) := by
  obtain ⟨hx, hxn, hxo, hxk, hxr⟩ := has_extends hE.idem w.own src
  unfold sourceC at h
  simp only at h
  split at h
  · split at h
    · cases h
    · rename_i hh' o1 hg
      simp only [Except.ok.injEq, Prod.mk.injEq] at h
      obtain ⟨rfl, rfl⟩ := h
      have hr := get_ok.1 hg
      have hlt := hwf _ _ ((hxr _ _).1 hr)
      refine ⟨hx, ?_, hr, ?_, ?_, fun _ => hxr⟩
      · intro n o h
        show o < (w.own.has E.canon src).1.reg.next
        rw [hxn]
        exact hwf n o ((hxr n o).1 h)
      · intro b h1 h2
        simp only at h2
        omega
      · intro hge; omega
  · rename_i hh'
    have hh' : (w.own.has E.canon src).2 = false := by simpa using hh'
    obtain ⟨he, hf1, hf2⟩ := has_false hh'
    rw [he, hh] at h
    obtain ⟨hown, rfl⟩ := addFileC_ok h
    simp only at hown
    have hcan : E.canon (E.canon src) = E.canon src := hE.idem src
    have hno : ∀ o', ¬ Resolves E.canon w.own.reg src o' := by
      intro o' ho'
      rw [has_true.2 ⟨o', ho'⟩] at hh'; cases hh'
    rw [hown]
    refine ⟨add_extends (by exact hcan) hf2, wf_add hwf (by exact hcan), ?_, ?_, ?_, ?_⟩
    · simp only [Resolves, MReg.add, Core.add, makeObj]
      by_cases hn : src = E.canon src
      · left; rw [← hn]; simp
      · right
        rw [Dict.get_set_ne _ _ (Ne.symm hn)]
        exact ⟨hf1, by simp⟩
    · intro b h1 h2
      simp only [MReg.add, Core.add] at h2
      show b = w.own.reg.next
      omega
    · intro _
      refine ⟨by simp [MReg.add], by simp [MReg.add, Core.add, globs], hno⟩
    · rintro ⟨o', ho'⟩
      exact absurd ho' (hno o')

/-- C40, `MakeCore.ftarget` and `MakeCore.touch` -/
theorem C40_ftarget (hE : E.Sane) {w w' : World} {tgt : String} {deps : List String} {o : Nat}
    (hwf : Wf E.canon w.own) (hstar : '*' ∉ (E.home tgt).toList)
    (hself : ∀ i, E.ex (anc (E.home tgt) i) = false → E.canon (anc (E.home tgt) i) ≠ E.canon (E.home tgt))
    (h : ftargetC E lim w tgt deps = .ok (w', o)) :
    FileAdded E w.own w'.own (E.home tgt) o (globs E deps) := by
  unfold ftargetC at h
  split at h
  · cases h
  · rename_i w1 dirdeps hd
    refine fileAdded_of hE hwf hstar hself hd (.refl _) (fun b h1 h2 => by omega)
      ?_ h
    intro d
    obtain ⟨hdeps, _⟩ := dirkeepC_ok hE.idem lim w w1 _ dirdeps (nostar_anc hstar)
      (fun i j h1 h2 e => missing_dist hE h1 h2 e) hwf hd
    rw [globs_append, globs_id (deps := dirdeps), List.mem_append]
    intro d hd
    rw [hdeps] at hd
    split at hd
    · cases hd
    · rw [List.mem_singleton] at hd
      rw [hd]; exact nostar_anc hstar 0

/-- C40, `MakeCore.copy` -/
theorem C40_copy (hE : E.Sane) {w w' : World} {src dst : String} {deps : List String} {o : Nat}
    (hwf : Wf E.canon w.own) (hstar : '*' ∉ (E.home dst).toList) (hstar' : '*' ∉ (E.home src).toList)
    (hself : ∀ i, E.ex (anc (E.home dst) i) = false → E.canon (anc (E.home dst) i) ≠ E.canon (E.home dst))
    (h : copyC E lim w src dst deps = .ok (w', o)) :
    FileAdded E w.own w'.own (E.home dst) o (E.home src :: globs E deps) := by
  unfold copyC at h
  split at h
  · cases h
  · rename_i w1 dirdeps hd
    split at h
    · cases h
    · rename_i w2 o2 hs
      have hwf1 := wf_dirkeep hE hwf hstar hd
      obtain ⟨hx, _, _, honly, hnew, _⟩ := sourceC_ok hE hwf1 (hE.home src) hs
      refine fileAdded_of hE hwf hstar hself hd hx ?_ ?_ h
      · intro b h1 h2 hk
        have := honly b h1 h2
        subst this
        rw [(hnew h1).1] at hk; cases hk
      · intro d
        obtain ⟨hdeps, _⟩ := dirkeepC_ok hE.idem lim w w1 _ dirdeps (nostar_anc hstar)
          (fun i j h1 h2 e => missing_dist hE h1 h2 e) hwf hd
        rw [globs_append, globs_id (deps := E.home src :: dirdeps), List.mem_append, List.mem_cons,
          List.mem_cons]
        · tauto
        · intro d hd
          rcases List.mem_cons.1 hd with rfl | hd
          · exact hstar'
          · rw [hdeps] at hd
            split at hd
            · cases hd
            · rw [List.mem_singleton] at hd
              rw [hd]; exact nostar_anc hstar 0

/-! #### the calls return -/

theorem fileInit_existing (hE : E.Sane) {fuel : Nat} {d : MReg} {r : String} (h : E.ex r = true) :
    ∃ x, fileInit E (fuel + 1) d r [] true = .ok x := by
  simp only [fileInit, hE.exParent r h, Bool.not_true, Bool.and_false, Bool.false_eq_true, if_false]
  exact ⟨_, rfl⟩

theorem addSources_returns (hE : E.Sane) {fuel : Nat} : ∀ (l : List String) (d : MReg),
    ∃ d', addSources E (fuel + 1) d l = .ok d' := by
  intro l
  unfold addSources
  induction l with
  | nil => intro d; exact ⟨d, rfl⟩
  | cons r l ih =>
    intro d
    simp only [List.foldlM_cons, bind, Except.bind]
    by_cases hr : E.ex r = true
    · rw [if_pos hr]
      split
      · rename_i hm
        split at hm
        · cases hm
        · obtain ⟨⟨d', t, ds⟩, hx⟩ := fileInit_existing (fuel := fuel) (d := (d.has E.canon r).1) hE hr
          rw [hx] at hm
          cases hm
      · exact ih _
    · rw [if_neg hr]
      exact ih _

theorem fileInit_returns (hE : E.Sane) {fuel : Nat} (hf : 2 ≤ fuel) (d : MReg) (tgt : String)
    (deps : List String) : ∃ x, fileInit E fuel d tgt deps false = .ok x := by
  obtain ⟨f, rfl⟩ : ∃ f, fuel = f + 1 + 1 := ⟨fuel - 2, by omega⟩
  rw [fileInit]
  simp only [Bool.false_and, Bool.false_eq_true, if_false]
  obtain ⟨d', hd⟩ := addSources_returns (fuel := f) hE (globs E deps) d
  unfold addSources at hd
  rw [hd]
  exact ⟨_, rfl⟩

theorem addFileC_returns (hE : E.Sane) (hl : 2 ≤ lim) (w : World) (tgt : String) (deps : List String)
    (k : Kind) : ∃ r, addFileC E lim w tgt deps k = .ok r := by
  obtain ⟨⟨d, t, ds⟩, h⟩ := fileInit_returns hE hl w.dflt tgt deps
  unfold addFileC
  rw [h]
  exact ⟨_, rfl⟩

theorem dirkeepC_returns (hE : E.Sane) (hl : 2 ≤ lim) : ∀ (k fuel : Nat) (w : World) (p : String),
    E.ex (anc p k) = true → k < fuel → ∃ r, dirkeepC E lim fuel w p = .ok r := by
  intro k
  induction k with
  | zero =>
    intro fuel w p hk hf
    obtain ⟨f, rfl⟩ : ∃ f, fuel = f + 1 := ⟨fuel - 1, by omega⟩
    rw [dirkeepC, if_neg (by rw [← anc_zero, hk]; simp)]
    exact ⟨_, rfl⟩
  | succ k ih =>
    intro fuel w p hk hf
    obtain ⟨f, rfl⟩ : ∃ f, fuel = f + 1 := ⟨fuel - 1, by omega⟩
    rw [dirkeepC]
    split
    · obtain ⟨⟨w1, deps⟩, h1⟩ := ih f w (parent p) hk (by omega)
      rw [h1]
      simp only
      split
      · exact ⟨_, rfl⟩
      · obtain ⟨⟨w2, o⟩, h2⟩ := addFileC_returns hE hl
          { w1 with own := (w1.own.has E.canon (parent p)).1 } (parent p) deps .dir
        unfold makedirC
        rw [h2]
        exact ⟨_, rfl⟩
    · exact ⟨_, rfl⟩

/-- C40: `ftarget` and `copy` return, as long as the path is shorter than the recursion limit. -/
theorem C40_returns (hE : E.Sane) (w : World) (tgt src : String) (deps : List String)
    (hl : (E.home tgt).toList.length + 1 < lim) :
    (∃ r, ftargetC E lim w tgt deps = .ok r) ∧ (∃ r, copyC E lim w src tgt deps = .ok r) := by
  obtain ⟨i, hi, hr⟩ := Path.ancestor_root _ (E.home tgt).toList (le_refl _)
  rw [← toList_iterate] at hr
  by_cases hl2 : 2 ≤ lim
  · obtain ⟨⟨w1, dd⟩, h1⟩ := dirkeepC_returns hE hl2 i lim w (E.home tgt) (hE.roots _ hr) (by omega)
    unfold ftargetC copyC
    rw [h1]
    refine ⟨addFileC_returns hE hl2 _ _ _ _, ?_⟩
    simp only
    have : ∃ r, sourceC E lim w1 (E.home src) = .ok r := by
      unfold sourceC
      simp only
      split
      · rename_i hh
        obtain ⟨o, ho⟩ := has_true.1 hh
        rw [get_ok.2 (((has_extends hE.idem w1.own (E.home src)).2.2.2.2 _ _).2 ho)]
        exact ⟨_, rfl⟩
      · exact addFileC_returns hE hl2 _ _ _ _
    obtain ⟨⟨w2, o⟩, h2⟩ := this
    rw [h2]
    exact addFileC_returns hE hl2 _ _ _ _
  · omega

/-! ### C42 -/

/-- C42, proved part.
* `MakeCore.source(p)`, for a path without `~`: if `p` (in any spelling) is registered, no lookup changes
  and that target is returned; otherwise a source target of `p` is added and all earlier lookups stay.
* `licant.source(p)` for the default core: if `p` is registered, no lookup changes.
Missing: `MakeCore.source` of a path with `~` (`C42_violated`). -/
theorem C42_partial (hE : E.Sane) :
    (∀ (w w' : World) src o, Wf E.canon w.own → E.home src = src → sourceC E lim w src = .ok (w', o) →
      Resolves E.canon w'.own.reg src o ∧
      (∀ o', Resolves E.canon w.own.reg src o' →
        o' = o ∧ ∀ n b, Resolves E.canon w'.own.reg n b ↔ Resolves E.canon w.own.reg n b) ∧
      ((∀ o', ¬ Resolves E.canon w.own.reg src o') →
        w'.own.kind o = .source ∧ (w'.own.reg.obj o).tgt = E.canon src ∧
        ∀ n b, Resolves E.canon w.own.reg n b → Resolves E.canon w'.own.reg n b)) ∧
    (∀ (d d' : MReg) src deps o, Resolves E.canon d.reg src o → sourceG E lim d src deps = .ok d' →
      d'.reg.obj = d.reg.obj ∧ d'.kind = d.kind ∧
      ∀ n b, Resolves E.canon d'.reg n b ↔ Resolves E.canon d.reg n b) := by
  refine ⟨?_, ?_⟩
  · intro w w' src o hwf hh h
    obtain ⟨hx, hwf', hr, honly, hnew, hold⟩ := sourceC_ok hE hwf hh h
    refine ⟨hr, ?_, ?_⟩
    · intro o' ho'
      have hiff := hold ⟨o', ho'⟩
      exact ⟨(((hiff _ _).1 hr).unique ho').symm, hiff⟩
    · intro hno
      have hge : w.own.reg.next ≤ o := by
        by_contra hlt
        -- an old object that was found under a name that did not resolve
        unfold sourceC at h
        simp only at h
        split at h
        · rename_i hh'
          obtain ⟨o', ho'⟩ := has_true.1 hh'
          exact hno o' ho'
        · rename_i hh'
          have hh' : (w.own.has E.canon src).2 = false := by simpa using hh'
          obtain ⟨he, _, _⟩ := has_false hh'
          rw [he] at h
          obtain ⟨_, rfl⟩ := addFileC_ok h
          exact hlt (le_refl _)
      obtain ⟨h1, h2, _⟩ := hnew hge
      exact ⟨h1, by rw [h2]; rfl, hx.names⟩
  · intro d d' src deps o ho h
    obtain ⟨_, _, hxo, hxk, hxr⟩ := has_extends hE.idem d src
    unfold sourceG at h
    simp only [has_true.2 ⟨o, ho⟩, if_true, Except.ok.injEq] at h
    subst h
    exact ⟨hxo, hxk, hxr⟩

/-- home directory `/h`, working directory `/w` -/
def homeEnv : Env where
  canon p := if p = "~/x" then "/w/~/x" else p
  ex p := decide (p ∈ [".", "/", "//", "/h", "/w"])
  home p := if p = "~/x" then "/h/x" else p
  glob _ := []

/-- C42 is false of the code: `MakeCore.source("~/x")` asks for `~/x` before the tilde is expanded, does
not find the target `/h/x`, and replaces it by a source.  A file target is then never built. -/
theorem C42_violated : ∃ w1 w2 o1 o2,
    ftargetC homeEnv 50 ⟨noReg, noReg⟩ "~/x" [] = .ok (w1, o1) ∧
    Resolves homeEnv.canon w1.own.reg "/h/x" o1 ∧ w1.own.kind o1 = .file ∧
    sourceC homeEnv 50 w1 "~/x" = .ok (w2, o2) ∧ o1 ≠ o2 ∧
    Resolves homeEnv.canon w2.own.reg "/h/x" o2 ∧ w2.own.kind o2 = .source := by
  refine ⟨_, _, 0, 1, rfl, ?_, ?_, rfl, ?_, ?_, ?_⟩
  · left; decide +kernel
  · decide +kernel
  · decide
  · left; decide +kernel
  · decide +kernel

/-! ### C43 -/

/-- names only become resolvable -/
def Grow (c c' : MReg) : Prop := ∀ n, n ∈ c.reg.targets.keys → n ∈ c'.reg.targets.keys

theorem Grow.resolves {c c' : MReg} (h : Grow c c') {n : String} {o : Nat}
    (hr : Resolves E.canon c.reg n o) : ∃ o', Resolves E.canon c'.reg n o' := by
  have key : ∀ m, m ∈ c'.reg.targets.keys → ∃ o, c'.reg.targets.get m = some o := by
    intro m hm
    exact Option.isSome_iff_exists.1 ((Dict.get_isSome_iff _ _).2 hm)
  have key' : ∀ m o, c.reg.targets.get m = some o → m ∈ c.reg.targets.keys := by
    intro m o hm
    exact (Dict.get_isSome_iff _ _).1 (by rw [hm]; rfl)
  rcases hr with hr | ⟨_, hr⟩
  · obtain ⟨o', ho'⟩ := key n (h n (key' n o hr))
    exact ⟨o', Or.inl ho'⟩
  · cases hg : c'.reg.targets.get n with
    | some o' => exact ⟨o', Or.inl hg⟩
    | none =>
      obtain ⟨o', ho'⟩ := key _ (h _ (key' _ o hr))
      exact ⟨o', Or.inr ⟨hg, ho'⟩⟩

theorem grow_add (c : MReg) (ob : Obj) (k : Kind) : Grow c (c.add ob k) := by
  intro n hn
  show n ∈ (c.reg.targets.set ob.tgt c.reg.next).keys
  rw [Dict.mem_keys_set]
  exact Or.inr hn

theorem grow_has (c : MReg) (n : String) : Grow c (c.has E.canon n).1 := by
  intro m hm
  unfold MReg.has Core.has
  simp only
  split
  · exact hm
  · split
    · simp only
      rw [Dict.mem_keys_set]
      exact Or.inr hm
    · exact hm

theorem Grow.trans {a b c : MReg} (h : Grow a b) (h' : Grow b c) : Grow a c := fun n hn => h' n (h n hn)

theorem fileInit_grow : ∀ (fuel : Nat) (d d' : MReg) (tgt t : String) (deps ds : List String) (u : Bool),
    fileInit E fuel d tgt deps u = .ok (d', t, ds) →
    Grow d d' ∧ t = E.canon tgt ∧
    ds = globs E (deps ++ if u && !E.ex (parent t) then [parent t] else []) ∧
    (u = true → E.ex (parent t) = false → E.canon (parent t) ∈ d'.reg.targets.keys) := by
  intro fuel
  induction fuel with
  | zero => intro d d' tgt t deps ds u h; cases h
  | succ fuel ih =>
    intro d d' tgt t deps ds u h
    rw [fileInit] at h
    -- the sources
    have hsrc : ∀ (l : List String) (d d' : MReg), l.foldlM (fun d r =>
        if E.ex r then
          let h := d.has E.canon r
          if h.2 then .ok h.1
          else match fileInit E fuel h.1 r [] true with
            | .error e => .error e
            | .ok (d, t, ds) => .ok (d.add (makeObj t ds) .source)
        else .ok d) d = Except.ok (ε := Err) d' → Grow d d' := by
      intro l
      induction l with
      | nil => intro d d' h; cases h; exact fun _ h => h
      | cons r l ihl =>
        intro d d' h
        simp only [List.foldlM_cons, bind, Except.bind] at h
        split at h
        · cases h
        · rename_i d1 h1
          refine Grow.trans ?_ (ihl d1 d' h)
          split at h1
          · split at h1
            · cases h1; exact grow_has _ _
            · split at h1
              · cases h1
              · rename_i x d2 t2 ds2 h2
                cases h1
                exact ((grow_has _ _).trans (ih _ _ _ _ _ _ _ h2).1).trans (grow_add _ _ _)
          · cases h1; exact fun _ h => h
    by_cases hu : (u && !E.ex (parent (E.canon tgt))) = true
    · simp only [hu, if_true] at h
      split at h
      · cases h
      · rename_i d1 deps1 hd
        split at hd
        · cases hd
        · rename_i d2 t2 ds2 h2
          simp only [Except.ok.injEq, Prod.mk.injEq] at hd
          obtain ⟨rfl, rfl⟩ := hd
          split at h
          · cases h
          · rename_i d3 h3
            simp only [Except.ok.injEq, Prod.mk.injEq] at h
            obtain ⟨rfl, rfl, rfl⟩ := h
            have g3 := hsrc _ _ _ h3
            obtain ⟨g2, rfl, _⟩ := ih _ _ _ _ _ _ _ h2
            refine ⟨(g2.trans (grow_add _ _ _)).trans g3, rfl, by rw [hu]; rfl, fun _ _ => g3 _ ?_⟩
            show _ ∈ (d2.reg.targets.set _ d2.reg.next).keys
            rw [Dict.mem_keys_set]
            exact Or.inl rfl
    · have hu' : (u && !E.ex (parent (E.canon tgt))) = false := by
        cases hb : (u && !E.ex (parent (E.canon tgt))) with
        | true => exact absurd hb hu
        | false => rfl
      simp only [hu', Bool.false_eq_true, if_false] at h
      split at h
      · cases h
      · rename_i d3 h3
        simp only [Except.ok.injEq, Prod.mk.injEq] at h
        obtain ⟨rfl, rfl, rfl⟩ := h
        refine ⟨hsrc _ _ _ h3, rfl, by simp [hu'], ?_⟩
        intro h1 h2
        rw [h1, h2] at hu
        exact absurd rfl hu

theorem sourceG_resolves (hi : Idempotent E.canon) {d d' : MReg} {src : String} {deps : List String}
    (h : sourceG E lim d src deps = .ok d') : ∃ o, Resolves E.canon d'.reg src o := by
  unfold sourceG at h
  simp only at h
  split at h
  · rename_i hh
    cases h
    obtain ⟨o, ho⟩ := has_true.1 hh
    exact ⟨o, ((has_extends hi d src).2.2.2.2 _ _).2 ho⟩
  · split at h
    · cases h
    · rename_i d1 t ds h1
      cases h
      obtain ⟨_, rfl, _⟩ := fileInit_grow _ _ _ _ _ _ _ _ h1
      cases hg : (d1.add (makeObj (E.canon src) ds) .source).reg.targets.get src with
      | some o => exact ⟨o, Or.inl hg⟩
      | none => exact ⟨d1.reg.next, Or.inr ⟨hg, by simp [MReg.add, Core.add, makeObj]⟩⟩

theorem makefileG_own {w w' : World} {tgt : String} {deps : List String} 
    (h : makefileG E lim w tgt deps true = .ok w') :
    ∃ ds, w'.own = w.own.add (makeObj (E.canon tgt) ds) .file ∧ (∀ d ∈ globs E deps, d ∈ ds) := by
  unfold makefileG at h
  split at h
  · cases h
  · rename_i d t ds h1
    cases h
    obtain ⟨_, rfl, rfl, _⟩ := fileInit_grow _ _ _ _ _ _ _ _ h1
    refine ⟨_, rfl, ?_⟩
    intro x hx
    rw [globs_append]
    simp [hx]

/-- C43 is false of the code, for every core other than the default core: after
`licant.copy(tgt, src, core=c)` the closure of `tgt` in `c` cannot be formed, because `src` was registered
in the default core.  (`c` did not know `src` before.) -/
theorem C43_violated (hi : Idempotent E.canon) {w w' : World} {tgt src : String} {adddeps : List String}
    (hsrc : ∀ o, ¬ Resolves E.canon w.own.reg (E.home src) o) (hstar : '*' ∉ (E.home src).toList)
    (hne : E.canon (E.home src) ≠ E.canon (E.home tgt))
    (h : copyG E lim w tgt src adddeps true = .ok w') (lim' : Nat)
    (hl : (allDeps w'.own.reg).length + 1 < lim') (incroot : Bool) :
    dependsAsSet E.canon w'.own.reg lim' [] (E.canon (E.home tgt)) incroot = .error .exit := by
  unfold copyG at h
  simp only at h
  split at h
  · cases h
  · rename_i d hd
    obtain ⟨ds, hown, hds⟩ := makefileG_own h
    simp only at hown
    refine ((C17_closure E.canon w'.own.reg lim' _ incroot).2 hl).2 ?_
    intro hall
    have hroot : Resolves E.canon w'.own.reg (E.canon (E.home tgt)) w.own.reg.next := by
      rw [hown]
      exact add_self (ob := makeObj (E.canon (E.home tgt)) ds)
    obtain ⟨o, ho⟩ := hall (E.home src) (.single ⟨_, hroot, by
      rw [hown]
      simp only [MReg.add, Core.add, makeObj, if_true]
      apply hds
      unfold globs
      rw [List.mem_flatMap]
      exact ⟨E.home src, by simp, by rw [if_neg hstar]; simp⟩⟩)
    rw [hown] at ho
    exact hsrc o ((add_resolves (by exact hi _) hne).1 ho)

/-- a file system with the file `/s/a` -/
def srcEnv : Env where
  canon p := p
  ex p := decide (p ∈ [".", "/", "//", "/s", "/s/a"])
  home p := p
  glob _ := []

theorem srcEnv_sane : srcEnv.Sane where
  idem _ := rfl
  home _ := rfl
  roots p h := by
    rw [← String.ofList_toList (s := p)]
    rcases h with h | h | h <;> rw [h] <;> decide
  exCanon _ h := h
  exCanonAnc _ _ := rfl
  exParent p h := by
    simp only [srcEnv, decide_eq_true_eq, List.mem_cons, List.not_mem_nil, or_false] at h
    rcases h with rfl | rfl | rfl | rfl | rfl <;> decide +kernel
  up p i h := by
    rw [← parent_anc]
    generalize anc p i = q at h
    simp only [srcEnv, decide_eq_true_eq, List.mem_cons, List.not_mem_nil, or_false] at h
    rcases h with rfl | rfl | rfl | rfl | rfl <;> decide +kernel
  canonParent p i _ := parent_anc p i

/-- C43 is false of the code: a concrete case.  The directory `/s/out` is registered in the default core,
too. -/
theorem C43_violated_witness : ∃ w', copyG srcEnv 50 ⟨noReg, noReg⟩ "/s/out/b" "/s/a" [] true = .ok w' ∧
    (w'.own.reg.obj 0).deps = ["/s/a", "/s/out"] ∧
    dependsAsSet srcEnv.canon w'.own.reg 50 [] "/s/out/b" true = .error .exit := by
  refine ⟨_, rfl, by decide +kernel, by decide +kernel⟩

/-- C43, proved part: in the default core, the source and the directory of the copy are registered.
Missing: other cores (`C43_violated`). -/
theorem C43_partial (hE : E.Sane) {w w' : World} {tgt src : String} {adddeps : List String}
    (hstar : '*' ∉ (E.home src).toList) (hstar' : '*' ∉ (E.canon (E.home tgt)).toList)
    (h : copyG E lim w tgt src adddeps false = .ok w') :
    ∃ o, Resolves E.canon w'.dflt.reg (E.canon (E.home tgt)) o ∧ w'.dflt.kind o = .file ∧
      E.home src ∈ (w'.dflt.reg.obj o).deps ∧
      ∀ d ∈ (w'.dflt.reg.obj o).deps, d ∉ globs E adddeps → ∃ o', Resolves E.canon w'.dflt.reg d o' := by
  unfold copyG at h
  simp only at h
  split at h
  · cases h
  · rename_i d hd
    unfold makefileG at h
    split at h
    · cases h
    · rename_i d1 t ds h1
      cases h
      obtain ⟨hg, rfl, hds, hdir⟩ := fileInit_grow _ _ _ _ _ _ _ _ h1
      simp only [World.addTo, Bool.false_eq_true, if_false]
      refine ⟨d1.reg.next, add_self (ob := makeObj (E.canon (E.home tgt)) ds), by simp [MReg.add], ?_, ?_⟩
      · simp only [MReg.add, Core.add, makeObj, if_true]
        rw [hds]
        unfold globs
        rw [List.mem_flatMap]
        exact ⟨E.home src, by simp, by rw [if_neg hstar]; simp⟩
      · intro x hx hnot
        simp only [MReg.add, Core.add, makeObj, if_true] at hx
        rw [hds, List.cons_append] at hx
        have hx' : x = E.home src ∨ (E.ex (parent (E.canon (E.home tgt))) = false ∧
            x = parent (E.canon (E.home tgt))) := by
          rw [← List.singleton_append, globs_append, globs_append, List.mem_append, List.mem_append] at hx
          rcases hx with hx | hx | hx
          · left
            simpa [globs, hstar] using hx
          · exact absurd hx hnot
          · right
            cases hex : E.ex (parent (E.canon (E.home tgt))) with
            | true => rw [hex] at hx; simp [globs] at hx
            | false =>
              rw [hex] at hx
              have hs : '*' ∉ (parent (E.canon (E.home tgt))).toList := nostar_anc hstar' 0
              simpa [globs, hs] using hx
        rcases hx' with rfl | ⟨hex, rfl⟩
        · obtain ⟨o, ho⟩ := sourceG_resolves hE.idem hd
          exact (hg.trans (grow_add _ _ _)).resolves ho
        · have hk := grow_add d1 (makeObj (E.canon (E.home tgt)) ds) .file _ (hdir rfl hex)
          obtain ⟨o, ho⟩ := Option.isSome_iff_exists.1 ((Dict.get_isSome_iff _ _).2 hk)
          cases hgn : (d1.add (makeObj (E.canon (E.home tgt)) ds) .file).reg.targets.get
              (parent (E.canon (E.home tgt))) with
          | some o' => exact ⟨o', Or.inl hgn⟩
          | none => exact ⟨o, Or.inr ⟨hgn, ho⟩⟩

/-! ### an example for the theorems of this file -/

/-- the ancestors of `/s/out/d/b` -/
theorem anc_demo : ∀ i, anc "/s/out/d/b" i ∈ ["/s/out/d", "/s/out", "/s", "/"] := by
  intro i
  induction i with
  | zero => decide +kernel
  | succ i ih =>
    rw [← parent_anc]
    generalize anc "/s/out/d/b" i = q at ih
    simp only [List.mem_cons, List.not_mem_nil, or_false] at ih
    rcases ih with rfl | rfl | rfl | rfl <;> decide +kernel

theorem wf_noReg (canon : String → String) : Wf canon noReg := by
  rintro n o (h | ⟨_, h⟩) <;> cases h

/-- The assumptions of C40 hold for `touch("/s/out/d/b", deps=["/s/a"])` in an empty core when only `/s`
and `/s/a` exist, the call returns, and two directories are registered, the upper one first. -/
example : srcEnv.Sane ∧ Wf srcEnv.canon noReg ∧ '*' ∉ (srcEnv.home "/s/out/d/b").toList ∧
    (∀ i, srcEnv.ex (anc (srcEnv.home "/s/out/d/b") i) = false →
      srcEnv.canon (anc (srcEnv.home "/s/out/d/b") i) ≠ srcEnv.canon (srcEnv.home "/s/out/d/b")) ∧
    ∃ w', ftargetC srcEnv 50 ⟨noReg, noReg⟩ "/s/out/d/b" ["/s/a"] = .ok (w', 2) ∧
      w'.own.reg.targets.keys = ["/s/out", "/s/out/d", "/s/out/d/b"] ∧
      (w'.own.reg.obj 1).deps = ["/s/out"] ∧ (w'.own.reg.obj 2).deps = ["/s/a", "/s/out/d"] := by
  refine ⟨srcEnv_sane, wf_noReg _, by decide, ?_, _, rfl, by decide +kernel, by decide +kernel, by decide +kernel⟩
  intro i _ e
  have h := anc_demo i
  change anc "/s/out/d/b" i = "/s/out/d/b" at e
  rw [e] at h
  revert h; decide +kernel

/-- The same for `copy("/s/a", "/s/out/d/b")`: C40 and the default core of `C43_partial`. -/
example : (∃ w', copyC srcEnv 50 ⟨noReg, noReg⟩ "/s/a" "/s/out/d/b" [] = .ok (w', 3) ∧
      w'.own.reg.targets.keys = ["/s/out", "/s/out/d", "/s/a", "/s/out/d/b"] ∧
      (w'.own.reg.obj 3).deps = ["/s/a", "/s/out/d"]) ∧
    ∃ w', copyG srcEnv 50 ⟨noReg, noReg⟩ "/s/out/d/b" "/s/a" [] false = .ok w' ∧
      w'.dflt.reg.targets.keys = ["/s/a", "/s/out", "/s/out/d", "/s/out/d/b"] := by
  exact ⟨⟨_, rfl, by decide +kernel, by decide +kernel⟩, _, rfl, by decide +kernel⟩

/-- both cases of `C42_partial`: `source("/s/a")` twice -/
example : ∃ w1 w2, sourceC srcEnv 50 ⟨noReg, noReg⟩ "/s/a" = .ok (w1, 0) ∧ w1.own.kind 0 = .source ∧
    sourceC srcEnv 50 w1 "/s/a" = .ok (w2, 0) ∧ w2.own.reg.next = 1 :=
  ⟨_, _, rfl, by decide +kernel, rfl, by decide +kernel⟩

end Licant.Make
