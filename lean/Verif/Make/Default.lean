/-
Targets registered in the default core, with directories that are registered again and again, satisfy the assumptions of
the theorems about builds: C88.
-/
import Verif.Make.Keeps

set_option autoImplicit false

namespace Licant.Make
open Licant.Py Licant.Core Relation

variable {E : Env} {lim : Nat} {c : MReg}

/-- files and sources -/
def FileLike (k : Kind) : Prop := k = .file ∨ k = .source

/-- a name leads to a target of make.py: a file, a source, a directory or a set of files -/
def Leads (E : Env) (c : MReg) (n : String) : Prop := ∃ o, Resolves E.canon c.reg n o ∧ c.kind o ≠ .other

/-- The invariant of the default core.  Objects of kind `other` are targets that make.py does not know: routines and the
targets that licant registers for itself. -/
structure GoodD (E : Env) (c : MReg) : Prop where
  keys : c.reg.targets.keys.Nodup
  lt : ∀ n o, c.reg.targets.get n = some o → o < c.reg.next
  names : ∀ n o, c.reg.targets.get n = some o → E.canon n = E.canon (c.reg.obj o).tgt
  self : ∀ n o, c.reg.targets.get n = some o → c.reg.targets.get (c.reg.obj o).tgt = some o
  canonT : ∀ o, o < c.reg.next → c.kind o ≠ .fileset → c.kind o ≠ .other →
    E.canon (c.reg.obj o).tgt = (c.reg.obj o).tgt
  blank : ∀ o, c.reg.next ≤ o → (c.reg.obj o).deps = [] ∧ c.kind o = .other
  upd : ∀ o, c.kind o ≠ .other → (c.reg.obj o).upd = true
  plainO : ∀ o, c.kind o = .source ∨ c.kind o = .dir → c.reg.obj o = plain E (c.reg.obj o).tgt
  par : ∀ o, c.kind o = .source ∨ c.kind o = .dir → E.ex (parent (c.reg.obj o).tgt) = false →
    ∃ b, Resolves E.canon c.reg (parent (c.reg.obj o).tgt) b ∧ c.kind b = .dir ∧
      (c.reg.obj b).tgt = E.canon (parent (c.reg.obj o).tgt)
  deps : ∀ o, o < c.reg.next → ∀ d ∈ (c.reg.obj o).deps, ∃ o', Resolves E.canon c.reg d o' ∧ (c.kind o' = .dir ∨ o' < o) ∧
    (c.kind o = .other ∨ c.kind o' ≠ .other)
  dirMissing : ∀ o, c.kind o = .dir → E.ex (c.reg.obj o).tgt = false
  noalias : ∀ n o, c.reg.targets.get n = some o → c.kind o = .dir → n = (c.reg.obj o).tgt
  sep : ∀ a b, FileLike (c.kind a) → c.kind b = .dir → ¬ IsAnc (c.reg.obj a).tgt (c.reg.obj b).tgt

theorem goodD_noReg : GoodD E noReg where
  keys := List.nodup_nil
  lt := by intro n o h; cases h
  names := by intro n o h; cases h
  self := by intro n o h; cases h
  canonT := by intro o h; cases h
  blank := fun _ _ => ⟨rfl, rfl⟩
  upd := by intro o h; exact absurd rfl h
  plainO := by rintro o (h | h) <;> cases h
  par := by rintro o (h | h) <;> cases h
  deps := by intro o h; cases h
  dirMissing := by intro o h; cases h
  noalias := by intro n o h; cases h
  sep := by rintro a b (h | h) <;> cases h

theorem licantReg_kind : ∀ o : Nat, licantReg.kind o = .other
  | 0 | 1 | 2 | 3 => rfl
  | _ + 4 => rfl

theorem licantReg_deps : ∀ o : Nat, (licantReg.reg.obj o).deps = []
  | 0 | 1 | 2 | 3 => rfl
  | _ + 4 => rfl

theorem licantReg_get {n : String} {o : Nat} (h : licantReg.reg.targets.get n = some o) :
    o < licantReg.reg.next ∧ (licantReg.reg.obj o).tgt = n ∧ n ∈ licantNames := by
  have hget : licantReg.reg.targets.get n = if "l" = n then some 3 else if "cxxm" = n then some 2 else
      if "m" = n then some 1 else if "binutils" = n then some 0 else none := by
    simp only [licantReg, MReg.add, Core.add, Dict.get_set, builtin]
    rfl
  rw [hget] at h
  have h4 : licantReg.reg.next = 4 := rfl
  split at h
  · cases h; subst n; exact ⟨by omega, by decide +kernel, by decide +kernel⟩
  · split at h
    · cases h; subst n; exact ⟨by omega, by decide +kernel, by decide +kernel⟩
    · split at h
      · cases h; subst n; exact ⟨by omega, by decide +kernel, by decide +kernel⟩
      · split at h
        · cases h; subst n; exact ⟨by omega, by decide +kernel, by decide +kernel⟩
        · cases h

theorem goodD_licantReg : GoodD E licantReg where
  keys := by decide +kernel
  lt := fun _ _ h => (licantReg_get h).1
  names := fun _ _ h => by rw [(licantReg_get h).2.1]
  self := fun _ _ h => by rw [(licantReg_get h).2.1]; exact h
  canonT := fun o _ _ h => absurd (licantReg_kind o) h
  blank := fun o _ => ⟨licantReg_deps o, licantReg_kind o⟩
  upd := fun o h => absurd (licantReg_kind o) h
  plainO := by rintro o (h | h) <;> rw [licantReg_kind] at h <;> cases h
  par := by rintro o (h | h) <;> rw [licantReg_kind] at h <;> cases h
  deps := by intro o _ d hd; rw [licantReg_deps] at hd; cases hd
  dirMissing := by intro o h; rw [licantReg_kind] at h; cases h
  noalias := by intro n o _ h; rw [licantReg_kind] at h; cases h
  sep := by rintro a b (h | h) <;> rw [licantReg_kind] at h <;> cases h

theorem GoodD.wf (h : GoodD E c) : Wf E.canon c := by
  rintro n o (hr | ⟨_, hr⟩)
  · exact h.lt n o hr
  · exact h.lt _ o hr

theorem GoodD.old (h : GoodD E c) {o : Nat} (hk : c.kind o ≠ .other) : o < c.reg.next := by
  by_contra hc
  exact hk (h.blank o (by omega)).2

/-- a name leads to an object with the same canonical path -/
theorem GoodD.canonEq (h : GoodD E c) (hi : Idempotent E.canon) {n : String} {o : Nat} (hr : Resolves E.canon c.reg n o) :
    E.canon n = E.canon (c.reg.obj o).tgt := by
  rcases hr with hr | ⟨_, hr⟩
  · exact h.names n o hr
  · rw [← h.names _ o hr, hi]

/-- existing files are not registered as directories -/
theorem GoodD.notDir (h : GoodD E c) (hE : E.Sane) {r : String} (hx : E.ex r = true) {o : Nat}
    (hr : Resolves E.canon c.reg r o) : c.kind o ≠ .dir := by
  intro hk
  have h1 := h.dirMissing o hk
  rw [← h.canonT o (h.wf _ _ hr) (by rw [hk]; simp) (by rw [hk]; simp), ← h.canonEq hE.idem hr, hE.exCanon r hx] at h1
  cases h1

theorem get_has_cases (n m : String) : (c.has E.canon n).1.reg.targets.get m = c.reg.targets.get m ∨
    (m = n ∧ c.reg.targets.get n = none ∧
      (c.has E.canon n).1.reg.targets.get n = c.reg.targets.get (E.canon n)) := by
  unfold MReg.has Core.has
  simp only
  split
  · exact Or.inl rfl
  · rename_i hn
    split
    · rename_i o ho
      simp only [Dict.get_set]
      by_cases hm : n = m
      · right
        refine ⟨hm.symm, ?_, by simp [ho]⟩
        simpa [Dict.has] using hn
      · left; simp [hm]
    · exact Or.inl rfl

theorem goodD_has (hi : Idempotent E.canon) (h : GoodD E c) (n : String)
    (hn : ∀ o, Resolves E.canon c.reg n o → c.kind o ≠ .dir) : GoodD E (c.has E.canon n).1 := by
  obtain ⟨_, hxn, hxo, hxk, hxr⟩ := has_extends hi c n
  have htgt := get_has_cases (E := E) (c := c) n
  have hkeys : (c.has E.canon n).1.reg.targets.keys.Nodup := by
    unfold MReg.has Core.has
    simp only
    split
    · exact h.keys
    · split
      · exact Dict.nodup_keys_set h.keys _ _
      · exact h.keys
  refine ⟨hkeys, ?_, ?_, ?_, ?_, ?_, ?_, ?_, ?_, ?_, ?_, ?_, ?_⟩
  · intro m o hg
    rw [hxn]
    rcases htgt m with e | ⟨rfl, _, e⟩
    · exact h.lt m o (e ▸ hg)
    · exact h.lt _ o (e ▸ hg)
  · intro m o hg
    rw [hxo]
    rcases htgt m with e | ⟨rfl, _, e⟩
    · exact h.names m o (e ▸ hg)
    · rw [← h.names _ o (e ▸ hg), hi]
  · intro m o hg
    rw [hxo]
    have hs : c.reg.targets.get (c.reg.obj o).tgt = some o := by
      rcases htgt m with e | ⟨rfl, _, e⟩
      · exact h.self m o (e ▸ hg)
      · exact h.self _ o (e ▸ hg)
    rcases htgt (c.reg.obj o).tgt with e | ⟨e1, e2, _⟩
    · rw [e]; exact hs
    · rw [e1, e2] at hs; cases hs
  · rw [hxn, hxo, hxk]; exact h.canonT
  · rw [hxn, hxo, hxk]; exact h.blank
  · rw [hxk, hxo]; exact h.upd
  · rw [hxo, hxk]; exact h.plainO
  · rw [hxo, hxk]
    intro o ho he
    obtain ⟨b, h1, h2⟩ := h.par o ho he
    exact ⟨b, (hxr _ _).2 h1, h2⟩
  · rw [hxn, hxo, hxk]
    intro o ho d hd
    obtain ⟨o', h1, h2⟩ := h.deps o ho d hd
    exact ⟨o', (hxr _ _).2 h1, h2⟩
  · rw [hxo, hxk]; exact h.dirMissing
  · rw [hxo, hxk]
    intro m o hg hk
    rcases htgt m with e | ⟨rfl, e1, e⟩
    · exact h.noalias m o (e ▸ hg) hk
    · exact absurd hk (hn o (Or.inr ⟨e1, e ▸ hg⟩))
  · rw [hxo, hxk]; exact h.sep

/-- every name still leads to the same object, or from a directory to a new object for the same directory -/
def Follows (E : Env) (c c' : MReg) : Prop :=
  c.reg.next ≤ c'.reg.next ∧ (∀ o, o < c.reg.next → c'.reg.obj o = c.reg.obj o ∧ c'.kind o = c.kind o) ∧
  ∀ n o, Resolves E.canon c.reg n o → ∃ o', Resolves E.canon c'.reg n o' ∧
    (o' = o ∨ c.kind o = .dir ∧ c'.kind o' = .dir ∧ (c'.reg.obj o').tgt = (c.reg.obj o).tgt)

theorem Follows.refl : Follows E c c := ⟨le_refl _, fun _ _ => ⟨rfl, rfl⟩, fun _ o h => ⟨o, h, Or.inl rfl⟩⟩

theorem Follows.trans {a b d : MReg} (h : Follows E a b) (h' : Follows E b d) (hw : Wf E.canon a)
    (hw' : Wf E.canon b) : Follows E a d := by
  refine ⟨le_trans h.1 h'.1, fun o ho => ?_, fun n o hr => ?_⟩
  · obtain ⟨h1, h2⟩ := h.2.1 o ho
    obtain ⟨h3, h4⟩ := h'.2.1 o (lt_of_lt_of_le ho h.1)
    exact ⟨h3.trans h1, h4.trans h2⟩
  · obtain ⟨o1, hr1, he1⟩ := h.2.2 n o hr
    obtain ⟨o2, hr2, he2⟩ := h'.2.2 n o1 hr1
    refine ⟨o2, hr2, ?_⟩
    rcases he1 with rfl | ⟨h1, h2, h3⟩
    · rcases he2 with rfl | ⟨h4, h5, h6⟩
      · exact Or.inl rfl
      · obtain ⟨h7, h8⟩ := h.2.1 o1 (hw _ _ hr)
        exact Or.inr ⟨h8 ▸ h4, h5, by rw [h6, h7]⟩
    · rcases he2 with rfl | ⟨h4, h5, h6⟩
      · obtain ⟨h7, h8⟩ := h'.2.1 o2 (hw' _ _ hr1)
        exact Or.inr ⟨h1, by rw [h8]; exact h2, by rw [h7]; exact h3⟩
      · exact Or.inr ⟨h1, h5, h6.trans h3⟩

theorem Follows.some {a b : MReg} (h : Follows E a b) {n : String} (hn : ∃ o, Resolves E.canon a.reg n o) :
    ∃ o, Resolves E.canon b.reg n o := by
  obtain ⟨o, ho⟩ := hn
  obtain ⟨o', h1, _⟩ := h.2.2 n o ho
  exact ⟨o', h1⟩

theorem Follows.leads {a b : MReg} (h : Follows E a b) (hw : Wf E.canon a) {n : String} (hn : Leads E a n) :
    Leads E b n := by
  obtain ⟨o, ho, hk⟩ := hn
  obtain ⟨o', h1, rfl | ⟨_, h2, _⟩⟩ := h.2.2 n o ho
  · exact ⟨o', h1, by rw [(h.2.1 o' (hw _ _ ho)).2]; exact hk⟩
  · exact ⟨o', h1, by rw [h2]; simp⟩

theorem Follows.dir {a b : MReg} (h : Follows E a b) (hw : Wf E.canon a) {n t : String}
    (hn : ∃ o, Resolves E.canon a.reg n o ∧ a.kind o = .dir ∧ (a.reg.obj o).tgt = t) :
    ∃ o, Resolves E.canon b.reg n o ∧ b.kind o = .dir ∧ (b.reg.obj o).tgt = t := by
  obtain ⟨o, ho, hk, ht⟩ := hn
  obtain ⟨o', h1, rfl | ⟨_, h2, h3⟩⟩ := h.2.2 n o ho
  · obtain ⟨h4, h5⟩ := h.2.1 o' (hw _ _ ho)
    exact ⟨o', h1, by rw [h5]; exact hk, by rw [h4]; exact ht⟩
  · exact ⟨o', h1, h2, by rw [h3]; exact ht⟩

theorem follows_has (hi : Idempotent E.canon) (c : MReg) (n : String) : Follows E c (c.has E.canon n).1 := by
  obtain ⟨hx, h1, h2, h3, h4⟩ := has_extends hi c n
  exact ⟨hx.next, hx.obj, fun m o h => ⟨o, (h4 m o).2 h, Or.inl rfl⟩⟩

/-- where a new target may be put: under a new name, or a directory in the place of a directory -/
def Slot (E : Env) (c : MReg) (t : String) (k : Kind) : Prop :=
  (∀ o, ¬ Resolves E.canon c.reg t o) ∨
  (k = .dir ∧ ∃ old, c.reg.targets.get t = some old ∧ c.kind old = .dir)

theorem follows_addO (h : GoodD E c) {ob : Obj} {k : Kind} (hs : Slot E c ob.tgt k) : Follows E c (c.add ob k) := by
  have hget : ∀ n, (c.add ob k).reg.targets.get n =
      if ob.tgt = n then some c.reg.next else c.reg.targets.get n := by
    intro n
    show (c.reg.targets.set ob.tgt c.reg.next).get n = _
    rw [Dict.get_set]
  refine ⟨by simp [MReg.add, Core.add], fun o ho => ?_, fun n o hr => ?_⟩
  · have : o ≠ c.reg.next := by omega
    simp [MReg.add, Core.add, this]
  · rcases hs with hs | ⟨rfl, old, hold, hkold⟩
    · refine ⟨o, ?_, Or.inl rfl⟩
      rcases hr with hr | ⟨hr1, hr2⟩
      · left
        rw [hget, if_neg]
        · exact hr
        · rintro rfl; exact hs o (Or.inl hr)
      · right
        rw [hget, hget, if_neg, if_neg]
        · exact ⟨hr1, hr2⟩
        · intro e; rw [← e] at hr2; exact hs o (Or.inl hr2)
        · rintro rfl; exact hs o (Or.inr ⟨hr1, hr2⟩)
    · have ht : (c.reg.obj old).tgt = ob.tgt := (h.noalias _ old hold hkold).symm
      have hnew : (c.add ob .dir).kind c.reg.next = .dir ∧
          ((c.add ob .dir).reg.obj c.reg.next).tgt = ob.tgt := by simp [MReg.add, Core.add]
      rcases hr with hr | ⟨hr1, hr2⟩
      · by_cases e : ob.tgt = n
        · subst e
          rw [hold] at hr; cases hr
          exact ⟨c.reg.next, Or.inl (by rw [hget, if_pos rfl]), Or.inr ⟨hkold, hnew.1, by rw [ht]; exact hnew.2⟩⟩
        · exact ⟨o, Or.inl (by rw [hget, if_neg e]; exact hr), Or.inl rfl⟩
      · have e1 : ob.tgt ≠ n := by rintro rfl; rw [hold] at hr1; cases hr1
        by_cases e : ob.tgt = E.canon n
        · rw [← e, hold] at hr2; cases hr2
          exact ⟨c.reg.next, Or.inr ⟨by rw [hget, if_neg e1]; exact hr1, by rw [hget, if_pos e]⟩,
            Or.inr ⟨hkold, hnew.1, by rw [ht]; exact hnew.2⟩⟩
        · exact ⟨o, Or.inr ⟨by rw [hget, if_neg e1]; exact hr1, by rw [hget, if_neg e]; exact hr2⟩, Or.inl rfl⟩

theorem follows_add (h : GoodD E c) {t : String} {ds : List String} {k : Kind} (hs : Slot E c t k) :
    Follows E c (c.add (makeObj t ds) k) := follows_addO (ob := makeObj t ds) h hs

theorem goodD_addO (h : GoodD E c) {ob : Obj} {k : Kind}
    (hs : Slot E c ob.tgt k) (hupd : k ≠ .other → ob.upd = true)
    (ht : k ≠ .fileset → k ≠ .other → E.canon ob.tgt = ob.tgt)
    (hdeps : ∀ d ∈ ob.deps, ∃ o, Resolves E.canon c.reg d o ∧ (k = .other ∨ c.kind o ≠ .other))
    (hplain : k = .source ∨ k = .dir → ob = plain E ob.tgt ∧ (E.ex (parent ob.tgt) = false →
      ∃ b, Resolves E.canon c.reg (parent ob.tgt) b ∧ c.kind b = .dir ∧ (c.reg.obj b).tgt = E.canon (parent ob.tgt)))
    (hmiss : k = .dir → E.ex ob.tgt = false)
    (hsep1 : FileLike k → ∀ b, c.kind b = .dir → ¬ IsAnc ob.tgt (c.reg.obj b).tgt)
    (hsep2 : k = .dir → ∀ a, FileLike (c.kind a) → ¬ IsAnc (c.reg.obj a).tgt ob.tgt) :
    GoodD E (c.add ob k) := by
  have hf := follows_addO h hs
  have hw := h.wf
  have hnext : (c.add ob k).reg.next = c.reg.next + 1 := rfl
  have hobj : ∀ o, (c.add ob k).reg.obj o = if o = c.reg.next then ob else c.reg.obj o :=
    fun o => rfl
  have hkind : ∀ o, (c.add ob k).kind o = if o = c.reg.next then k else c.kind o := fun o => rfl
  have hget : ∀ n, (c.add ob k).reg.targets.get n =
      if ob.tgt = n then some c.reg.next else c.reg.targets.get n := by
    intro n
    show (c.reg.targets.set ob.tgt c.reg.next).get n = _
    rw [Dict.get_set]
  have hold : ∀ o, c.kind o ≠ .other → o ≠ c.reg.next := by
    intro o ho e
    have := h.old ho
    omega
  refine ⟨Dict.nodup_keys_set h.keys _ _, ?_, ?_, ?_, ?_, ?_, ?_, ?_, ?_, ?_, ?_, ?_, ?_⟩
  · intro n o hg
    rw [hnext]
    rw [hget] at hg
    split at hg
    · cases hg; omega
    · have := h.lt n o hg; omega
  · intro n o hg
    rw [hget] at hg
    split at hg
    · rename_i e
      cases hg
      rw [hobj, if_pos rfl, ← e]
    · have := h.lt n o hg
      rw [hobj, if_neg (by omega)]
      exact h.names n o hg
  · intro n o hg
    rw [hget] at hg
    split at hg
    · cases hg
      rw [hobj, if_pos rfl, hget, if_pos (by rfl)]
    · rename_i e
      have := h.lt n o hg
      rw [hobj, if_neg (by omega), hget]
      have hself := h.self n o hg
      rw [if_neg]
      · exact hself
      · intro e'
        rw [← e'] at hself
        rcases hs with hs | ⟨_, old, h1, h2⟩
        · exact hs o (Or.inl hself)
        · rw [h1] at hself; cases hself
          exact e (e'.trans (h.noalias n _ hg h2).symm)
  · intro o ho hko hko'
    rw [hnext] at ho
    rw [hkind] at hko hko'
    rw [hobj]
    by_cases e : o = c.reg.next
    · rw [if_pos e] at hko hko' ⊢; exact ht hko hko'
    · rw [if_neg e] at hko hko' ⊢; exact h.canonT o (by omega) hko hko'
  · intro o ho
    rw [hnext] at ho
    rw [hobj, hkind, if_neg (by omega), if_neg (by omega)]
    exact h.blank o (by omega)
  · intro o ho
    rw [hkind] at ho
    rw [hobj]
    by_cases e : o = c.reg.next
    · rw [if_pos e] at ho ⊢; exact hupd ho
    · rw [if_neg e] at ho ⊢; exact h.upd o ho
  · intro o ho
    rw [hkind] at ho
    rw [hobj]
    by_cases e : o = c.reg.next
    · rw [if_pos e] at ho ⊢; exact (hplain ho).1
    · rw [if_neg e] at ho ⊢; exact h.plainO o ho
  · intro o ho he
    rw [hkind] at ho
    rw [hobj] at he ⊢
    by_cases e : o = c.reg.next
    · rw [if_pos e] at ho he ⊢
      exact hf.dir hw ((hplain ho).2 he)
    · rw [if_neg e] at ho he ⊢
      exact hf.dir hw (h.par o ho he)
  · intro o ho d hd
    rw [hobj] at hd
    have key : ∀ o1, Resolves E.canon c.reg d o1 → (c.kind o1 = .dir ∨ o1 < o) →
        ((c.add ob k).kind o = .other ∨ c.kind o1 ≠ .other) → ∃ o', Resolves E.canon (c.add ob k).reg d o' ∧
          ((c.add ob k).kind o' = .dir ∨ o' < o) ∧ ((c.add ob k).kind o = .other ∨ (c.add ob k).kind o' ≠ .other) := by
      intro o1 h1 h2 h2'
      obtain ⟨o', h3, rfl | ⟨_, h4, _⟩⟩ := hf.2.2 d o1 h1
      · refine ⟨o', h3, ?_⟩
        rw [hkind o', if_neg (by have := hw _ _ h1; omega)]
        exact ⟨h2, h2'⟩
      · exact ⟨o', h3, Or.inl h4, Or.inr (by rw [h4]; simp)⟩
    by_cases e : o = c.reg.next
    · rw [if_pos e] at hd
      obtain ⟨o1, h1, h2⟩ := hdeps d hd
      exact key o1 h1 (Or.inr (by rw [e]; exact hw _ _ h1)) (by rw [hkind, if_pos e]; exact h2)
    · rw [if_neg e] at hd
      obtain ⟨o1, h1, h2, h3⟩ := h.deps o (by omega) d hd
      exact key o1 h1 h2 (by rw [hkind, if_neg e]; exact h3)
  · intro o ho
    rw [hkind] at ho
    rw [hobj]
    by_cases e : o = c.reg.next
    · rw [if_pos e] at ho ⊢; exact hmiss ho
    · rw [if_neg e] at ho ⊢; exact h.dirMissing o ho
  · intro n o hg hko
    rw [hget] at hg
    rw [hkind] at hko
    rw [hobj]
    split at hg
    · rename_i e
      cases hg
      rw [if_pos rfl]
      exact e.symm
    · have := h.lt n o hg
      rw [if_neg (by omega)] at hko ⊢
      exact h.noalias n o hg hko
  · intro a b ha hb
    rw [hkind] at ha hb
    rw [hobj, hobj]
    by_cases ea : a = c.reg.next
    · rw [if_pos ea] at ha ⊢
      by_cases eb : b = c.reg.next
      · rw [if_pos eb] at hb
        rw [hb] at ha
        rcases ha with ha | ha <;> cases ha
      · rw [if_neg eb] at hb ⊢
        exact hsep1 ha b hb
    · rw [if_neg ea] at ha ⊢
      by_cases eb : b = c.reg.next
      · rw [if_pos eb] at hb ⊢
        exact hsep2 hb a ha
      · rw [if_neg eb] at hb ⊢
        exact h.sep a b ha hb

theorem goodD_add (h : GoodD E c) {t : String} {ds : List String} {k : Kind}
    (hs : Slot E c t k) (ht : k ≠ .fileset → E.canon t = t)
    (hdeps : ∀ d ∈ ds, Leads E c d)
    (hplain : k = .source ∨ k = .dir → makeObj t ds = plain E t ∧ (E.ex (parent t) = false →
      ∃ b, Resolves E.canon c.reg (parent t) b ∧ c.kind b = .dir ∧ (c.reg.obj b).tgt = E.canon (parent t)))
    (hmiss : k = .dir → E.ex t = false)
    (hsep1 : FileLike k → ∀ b, c.kind b = .dir → ¬ IsAnc t (c.reg.obj b).tgt)
    (hsep2 : k = .dir → ∀ a, FileLike (c.kind a) → ¬ IsAnc (c.reg.obj a).tgt t) :
    GoodD E (c.add (makeObj t ds) k) :=
  goodD_addO (ob := makeObj t ds) h hs (fun _ => rfl) (fun h _ => ht h)
    (fun d hd => by obtain ⟨o, h1, h2⟩ := hdeps d hd; exact ⟨o, h1, Or.inr h2⟩) hplain hmiss hsep1 hsep2

/-- a target that make.py does not know -/
theorem goodD_other (h : GoodD E c) {ob : Obj} (hs : ∀ o, ¬ Resolves E.canon c.reg ob.tgt o)
    (hdeps : ∀ d ∈ ob.deps, ∃ o, Resolves E.canon c.reg d o) : GoodD E (c.add ob .other) :=
  goodD_addO h (Or.inl hs) (fun h => absurd rfl h) (fun _ h => absurd rfl h)
    (fun d hd => by obtain ⟨o, h1⟩ := hdeps d hd; exact ⟨o, h1, Or.inl rfl⟩) (by rintro (h | h) <;> cases h)
    (by intro h; cases h) (by rintro (h | h) <;> cases h) (by intro h; cases h)

/-! ### `FileTarget.__init__` in the default core -/

/-- the missing directories of `t` can be registered: no file or source is an ancestor of one, and what is registered for
one is a directory -/
structure Clear (E : Env) (c : MReg) (t : String) : Prop where
  nofile : ∀ a q, FileLike (c.kind a) → MissingDir E t q → ¬ IsAnc (c.reg.obj a).tgt q
  taken : ∀ i o, E.ex (anc t i) = false →
    Resolves E.canon c.reg (anc t i) o ∨ Resolves E.canon c.reg (E.canon (anc t i)) o → c.kind o = .dir

/-- what registration of directories gives -/
structure DirsDone (E : Env) (d d' : MReg) (t : String) : Prop where
  good : GoodD E d'
  follows : Follows E d d'
  fresh : ∀ o, d.reg.next ≤ o → o < d'.reg.next → d'.kind o = .dir ∧ MissingDir E t (d'.reg.obj o).tgt
  new : ∀ n o, Resolves E.canon d'.reg n o → Resolves E.canon d.reg n o ∨
    (d.reg.next ≤ o ∧ o < d'.reg.next ∧ (d'.reg.obj o).tgt = E.canon n)

/-- the parent directory of `t`, if missing, is registered -/
def ParentDir (E : Env) (c : MReg) (t : String) : Prop := E.ex (parent t) = false →
  ∃ b, Resolves E.canon c.reg (parent t) b ∧ c.kind b = .dir ∧ (c.reg.obj b).tgt = E.canon (parent t)

theorem goodD_dirs (hE : E.Sane) : ∀ (fuel : Nat) (d d' : MReg) (tgt t : String) (ds : List String) (u : Bool),
    NoStar E tgt → GoodD E d → Clear E d (E.canon tgt) → fileInit E fuel d tgt [] u = .ok (d', t, ds) →
    DirsDone E d d' (E.canon tgt) ∧ (u = true → ParentDir E d' (E.canon tgt)) := by
  intro fuel
  induction fuel with
  | zero => intro d d' tgt t ds u _ _ _ h; cases h
  | succ fuel ih =>
    intro d d' tgt t ds u hs hg hcl h
    obtain ⟨rfl, hds, hk⟩ := fileInit_keeps hE _ _ _ _ _ _ _ _ hs h
    have hrest : ∀ {d' : MReg}, Keeps E.canon d d' (MissingDir E (E.canon tgt))
        (fun ob k => DirFor E (E.canon tgt) ob k ∨ SrcFor E [] ob k) →
        (∀ o, d.reg.next ≤ o → o < d'.reg.next → d'.kind o = .dir ∧ MissingDir E (E.canon tgt) (d'.reg.obj o).tgt) ∧
        ∀ n o, Resolves E.canon d'.reg n o → Resolves E.canon d.reg n o ∨
          (d.reg.next ≤ o ∧ o < d'.reg.next ∧ (d'.reg.obj o).tgt = E.canon n) := by
      intro d' hk
      refine ⟨fun o h1 h2 => ?_, hk.new⟩
      rcases hk.fresh o h1 h2 with ⟨h3, q, hq, he⟩ | ⟨_, r, hr, _⟩
      · exact ⟨h3, by rw [he]; exact hq⟩
      · cases hr
    simp only [fileInit] at h
    split at h
    · cases h
    · rename_i d1 deps1 hdir
      split at h
      · cases h
      · rename_i d2 hsrc
        simp only [Except.ok.injEq, Prod.mk.injEq] at h
        obtain ⟨rfl, -, rfl⟩ := h
        split at hdir
        · rename_i hc
          simp only [Bool.and_eq_true, Bool.not_eq_true'] at hc
          have hm : E.ex (parent (E.canon tgt)) = false := hc.2
          split at hdir
          · cases hdir
          · rename_i d0 t0 ds0 h0
            cases hdir
            -- no sources
            have hd2 : d2 = d0.add (makeObj t0 ds0) .dir := by
              have hst : '*' ∉ (parent (E.canon tgt)).toList := nostar_anc hs.1 0
              rw [show globs E ([] ++ [parent (E.canon tgt)]) = [parent (E.canon tgt)] from globs_id (by simpa using hst)]
                at hsrc
              simp only [List.foldlM_cons, List.foldlM_nil, hm, Bool.false_eq_true, if_false, bind, Except.bind, pure,
                Except.pure] at hsrc
              cases hsrc; rfl
            subst hd2
            have hd : MissingDir E (E.canon tgt) (E.canon (parent (E.canon tgt))) := ⟨0, hm, rfl⟩
            have hs0 : NoStar E (parent (E.canon tgt)) :=
              ⟨hs.2 _ hd, fun q hq => hs.2 q (missingDir_parent hE hm hq)⟩
            obtain ⟨hD, hP⟩ := ih _ _ _ _ _ _ hs0 hg
              ⟨fun a q ha hq => hcl.nofile a q ha (missingDir_parent hE hm hq),
               fun i o hi ho => by
                obtain ⟨h1, h2⟩ := anc_canon_parent hE hm hi
                refine hcl.taken (i + 1) o h1 (Or.inr ?_)
                rw [h2, hE.idem, or_self] at ho
                exact ho⟩ h0
            obtain ⟨rfl, hds0, hk0⟩ := fileInit_keeps hE _ _ _ _ _ _ _ _ hs0 h0
            have h1 : parent (E.canon (parent (E.canon tgt))) = E.canon (parent (parent (E.canon tgt))) :=
              hE.canonParent (E.canon tgt) 0 hm
            have hu : makeObj (E.canon (parent (E.canon tgt))) ds0 = plain E (E.canon (parent (E.canon tgt))) := by
              rw [plain_eq, hds0]
              simp only [globs, List.flatMap_nil, List.nil_append, dirDep, h1, hE.exCanonParent]
              cases E.ex (parent (parent (E.canon tgt))) <;> rfl
            -- what is registered for the directory
            have htaken : ∀ n o, n = parent (E.canon tgt) ∨ n = E.canon (parent (E.canon tgt)) →
                Resolves E.canon d0.reg n o → d0.kind o = .dir := by
              intro n o hn hr
              rcases hD.new n o hr with hr | ⟨h2, h3, _⟩
              · rw [(hD.follows.2.1 o (hg.wf _ _ hr)).2]
                refine hcl.taken 0 o hm ?_
                rcases hn with rfl | rfl
                · exact Or.inl hr
                · exact Or.inr hr
              · exact (hD.fresh o h2 h3).1
            have hslot : Slot E d0 (E.canon (parent (E.canon tgt))) .dir := by
              by_cases hex : ∃ o, Resolves E.canon d0.reg (E.canon (parent (E.canon tgt))) o
              · obtain ⟨o, ho⟩ := hex
                refine Or.inr ⟨rfl, o, ?_, htaken _ o (Or.inr rfl) ho⟩
                rcases ho with ho | ⟨h2, h3⟩
                · exact ho
                · rw [hE.idem, h2] at h3; cases h3
              · exact Or.inl fun o ho => hex ⟨o, ho⟩
            have hgood : GoodD E (d0.add (makeObj (E.canon (parent (E.canon tgt))) ds0) .dir) := by
              refine goodD_add hD.good hslot (fun _ => hE.idem _) ?_ (fun _ => ⟨hu, ?_⟩) ?_ ?_ ?_
              · intro x hx
                rw [hds0] at hx
                simp only [globs, List.flatMap_nil, List.nil_append, dirDep] at hx
                split at hx
                · rename_i hc'
                  simp only [Bool.and_eq_true, Bool.not_eq_true'] at hc'
                  rw [List.mem_singleton] at hx
                  rw [hx]
                  obtain ⟨b, hb, hkb, _⟩ := hP (by simp only [Bool.not_eq_true']; exact hc'.1) hc'.2
                  exact ⟨b, hb, by rw [hkb]; simp⟩
                · cases hx
              · intro he
                apply hP _ he
                rw [h1, hE.exCanonParent] at he
                rw [he]; rfl
              · intro _; rw [hE.exCanonParent]; exact hm
              · rintro (h | h) <;> cases h
              · intro _ a ha
                by_cases hlt : a < d.reg.next
                · obtain ⟨h2, h3⟩ := hD.follows.2.1 a hlt
                  rw [h2]
                  exact hcl.nofile a _ (by rw [← h3]; exact ha) hd
                · have hlt' : a < d0.reg.next := hD.good.old (by rcases ha with ha | ha <;> rw [ha] <;> simp)
                  rw [(hD.fresh a (by omega) hlt').1] at ha
                  rcases ha with ha | ha <;> cases ha
            have hfol := follows_add (ds := ds0) hD.good hslot
            refine ⟨⟨hgood, hD.follows.trans hfol hg.wf hD.good.wf, (hrest hk).1, (hrest hk).2⟩, fun _ _ => ?_⟩
            refine ⟨d0.reg.next, ?_, by simp [MReg.add], by simp [MReg.add, Core.add, makeObj]⟩
            by_cases he : parent (E.canon tgt) = E.canon (parent (E.canon tgt))
            · left
              simp only [MReg.add, Core.add, makeObj]
              rw [← he]
              exact Dict.get_set_self _ _ _
            · have hnone : d0.reg.targets.get (parent (E.canon tgt)) = none := by
                cases hgt : d0.reg.targets.get (parent (E.canon tgt)) with
                | none => rfl
                | some o =>
                  exfalso
                  have hko := htaken _ o (Or.inl rfl) (Or.inl hgt)
                  have h2 := hD.good.noalias _ o hgt hko
                  have h3 := hD.good.canonT o (hD.good.lt _ _ hgt) (by rw [hko]; simp) (by rw [hko]; simp)
                  rw [← h2] at h3
                  exact he h3.symm
              right
              simp only [MReg.add, Core.add, makeObj]
              rw [Dict.get_set_ne _ _ (Ne.symm he)]
              exact ⟨hnone, Dict.get_set_self _ _ _⟩
        · rename_i hc
          cases hdir
          cases hsrc
          refine ⟨⟨hg, .refl, (hrest hk).1, (hrest hk).2⟩, fun hu hm => ?_⟩
          rw [hu, hm] at hc
          exact absurd rfl hc

theorem addSources_keeps (hE : E.Sane) {fuel : Nat} {l : List String} {d d' : MReg}
    (h : addSources E fuel d l = .ok d') :
    Keeps E.canon d d' (fun _ => False) (fun ob k => k = .source ∧ ∃ r ∈ l, ob = plain E (E.canon r)) :=
  keeps_sources hE l d d' _ (fun r hr _ => ⟨rfl, r, hr, rfl⟩) h

/-- the existing dependencies are registered as sources -/
theorem goodD_sourcesR (hE : E.Sane) {fuel : Nat} : ∀ (l : List String) (d d' : MReg), GoodD E d →
    (∀ r ∈ l, E.ex r = true → (∃ o, Resolves E.canon d.reg r o) ∨
      ∀ b, d.kind b = .dir → ¬ IsAnc (E.canon r) (d.reg.obj b).tgt) →
    addSources E fuel d l = .ok d' →
    GoodD E d' ∧ Follows E d d' ∧ ∀ r ∈ l, E.ex r = true → ∃ o, Resolves E.canon d'.reg r o := by
  intro l
  induction l with
  | nil => intro d d' hg _ h; cases h; exact ⟨hg, .refl, by simp⟩
  | cons r l ih =>
    intro d d' hg hc h
    unfold addSources at h
    simp only [List.foldlM_cons, bind, Except.bind] at h
    split at h
    · cases h
    · rename_i d1 h1
      have key : GoodD E d1 ∧ Follows E d d1 ∧ (E.ex r = true → ∃ o, Resolves E.canon d1.reg r o) ∧
          ∀ b, d1.kind b = .dir → d.kind b = .dir ∧ d1.reg.obj b = d.reg.obj b := by
        split at h1
        · rename_i hx
          split at h1
          · rename_i hh
            cases h1
            obtain ⟨o, ho⟩ := has_true.1 hh
            obtain ⟨_, h2, h3, h4, h5⟩ := has_extends hE.idem d r
            exact ⟨goodD_has hE.idem hg r fun o => hg.notDir hE hx, follows_has hE.idem d r,
              fun _ => ⟨o, (h5 _ _).2 ho⟩, fun b hb => by rw [h3]; rw [h4] at hb; exact ⟨hb, rfl⟩⟩
          · rename_i hh
            obtain ⟨he, hf0, hf1⟩ := has_false (by simpa using hh)
            rw [he] at h1
            cases fuel with
            | zero => simp only [fileInit] at h1; cases h1
            | succ fuel =>
              simp only [fileInit, hE.exParent r hx, Bool.not_true, Bool.and_false, Bool.false_eq_true, if_false, globs,
                List.flatMap_nil, List.foldlM_nil, pure, Except.pure] at h1
              cases h1
              have hslot : Slot E d (E.canon r) .source := by
                left
                rintro o (h | ⟨_, h⟩)
                · rw [hf1] at h; cases h
                · rw [hE.idem, hf1] at h; cases h
              have hsep : ∀ b, d.kind b = .dir → ¬ IsAnc (E.canon r) (d.reg.obj b).tgt := by
                rcases hc r (by simp) hx with ⟨o, ho⟩ | h
                · rcases ho with ho | ⟨_, ho⟩
                  · rw [hf0] at ho; cases ho
                  · rw [hf1] at ho; cases ho
                · exact h
              refine ⟨goodD_add hg hslot (fun _ => hE.idem _) (by simp)
                (fun _ => ⟨by rw [plain, if_pos (hE.exParent r hx)], ?_⟩) (by intro h; cases h) (fun _ => hsep)
                (by intro h; cases h), follows_add hg hslot, fun _ => ?_, ?_⟩
              · intro h; rw [hE.exParent r hx] at h; cases h
              · refine ⟨d.reg.next, ?_⟩
                by_cases hp : r = E.canon r
                · left
                  simp only [MReg.add, Core.add, makeObj]
                  rw [← hp]
                  exact Dict.get_set_self _ _ _
                · right
                  simp only [MReg.add, Core.add, makeObj]
                  rw [Dict.get_set_ne _ _ (Ne.symm hp)]
                  exact ⟨hf0, Dict.get_set_self _ _ _⟩
              · intro b hb
                by_cases e : b = d.reg.next
                · subst e; simp [MReg.add] at hb
                · simpa [MReg.add, Core.add, e] using hb
        · rename_i hx
          cases h1
          exact ⟨hg, .refl, fun h => absurd h hx, fun b hb => ⟨hb, rfl⟩⟩
      obtain ⟨hg1, hf1, hr1, hd1⟩ := key
      obtain ⟨hg2, hf2, hr2⟩ := ih d1 d' hg1 (by
        intro x hx hxe
        rcases hc x (by simp [hx]) hxe with h | h
        · exact Or.inl (hf1.some h)
        · right
          intro b hb
          rw [(hd1 b hb).2]
          exact h b (hd1 b hb).1) h
      refine ⟨hg2, hf1.trans hf2 hg.wf hg1.wf, fun x hx hxe => ?_⟩
      rcases List.mem_cons.1 hx with rfl | hx
      · exact hf2.some (hr1 hxe)
      · exact hr2 x hx hxe

/-- the same, when none of the dependencies has the name of a target that make.py does not know -/
theorem goodD_sources (hE : E.Sane) {fuel : Nat} (l : List String) (d d' : MReg) (hg : GoodD E d)
    (hc : ∀ r ∈ l, E.ex r = true → Leads E d r ∨ (∀ o, Resolves E.canon d.reg r o → d.kind o ≠ .other) ∧
      ∀ b, d.kind b = .dir → ¬ IsAnc (E.canon r) (d.reg.obj b).tgt)
    (h : addSources E fuel d l = .ok d') :
    GoodD E d' ∧ Follows E d d' ∧ ∀ r ∈ l, E.ex r = true → Leads E d' r := by
  obtain ⟨h1, h2, h3⟩ := goodD_sourcesR hE l d d' hg (fun r hr hx => by
    rcases hc r hr hx with ⟨o, h, _⟩ | ⟨_, h⟩
    · exact Or.inl ⟨o, h⟩
    · exact Or.inr h) h
  refine ⟨h1, h2, fun r hr hx => ?_⟩
  obtain ⟨o, ho⟩ := h3 r hr hx
  have hk := addSources_keeps hE h
  refine ⟨o, ho, ?_⟩
  rcases hk.new _ _ ho with h | ⟨h4, h5, _⟩
  · rw [(h2.2.1 o (hg.wf _ _ h)).2]
    rcases hc r hr hx with ⟨o1, h6, h7⟩ | ⟨h6, _⟩
    · rw [h.unique h6]; exact h7
    · exact h6 o h
  · rw [(hk.fresh o h4 h5).1]; simp

/-- The path `p` can be used for a new file or source in the default core:
* there are no patterns in it, and it is not registered;
* it is none of its own missing directories and above none of them;
* it is above no registered directory;
* its missing directories can be registered. -/
structure FitsD (E : Env) (c : MReg) (p : String) : Prop where
  nostar : NoStar E p
  new : ∀ o, ¬ Resolves E.canon c.reg (E.canon p) o
  own : ∀ q, MissingDir E (E.canon p) q → E.canon p ≠ q ∧ ¬ IsAnc (E.canon p) q
  notdir : ∀ b, c.kind b = .dir → ¬ IsAnc (E.canon p) (c.reg.obj b).tgt
  clear : Clear E c (E.canon p)

/-- What the target `p` can depend on: not on itself, but on a registered target of make.py, or on an existing file that
is not above a directory of the project and does not have the name of a target that make.py does not know. -/
def DepD (E : Env) (c : MReg) (p r : String) : Prop :=
  E.canon r ≠ E.canon p ∧
  (Leads E c r ∨
    E.ex r = true ∧ (∀ o, Resolves E.canon c.reg r o → c.kind o ≠ .other) ∧ (∀ b, c.kind b = .dir → ¬ IsAnc (E.canon r) (c.reg.obj b).tgt) ∧
      ∀ q, MissingDir E (E.canon p) q → ¬ IsAnc (E.canon r) q)

/-- a `FileTarget` with dependencies: first its directories, then its sources -/
theorem fileInit_split {fuel : Nat} {d d' : MReg} {tgt t : String} {deps ds : List String} (hs : NoStar E tgt)
    (h : fileInit E fuel d tgt deps true = .ok (d', t, ds)) :
    ∃ d1 t1 ds1 f, fileInit E fuel d tgt [] true = .ok (d1, t1, ds1) ∧
      addSources E f d1 (globs E deps ++ dirDep E true (E.canon tgt)) = .ok d' := by
  cases fuel with
  | zero => cases h
  | succ fuel =>
    simp only [fileInit] at h ⊢
    split at h
    · cases h
    · rename_i d1 deps1 hdir
      split at h
      · cases h
      · rename_i d2 hsrc
        cases h
        split at hdir
        · rename_i hc
          split at hdir
          · cases hdir
          · rename_i d0 t0 ds0 h0
            cases hdir
            have hm : E.ex (parent (E.canon tgt)) = false := by
              simp only [Bool.and_eq_true, Bool.not_eq_true'] at hc; exact hc.2
            have hgl : globs E [parent (E.canon tgt)] = [parent (E.canon tgt)] := by
              have := globs_dirDep (E := E) (u := true) hs.1
              rwa [dirDep, if_pos hc] at this
            refine ⟨d0.add (makeObj t0 ds0) .dir, E.canon tgt, [parent (E.canon tgt)], fuel, ?_, ?_⟩
            · rw [if_pos hc]
              simp only [List.nil_append, hgl, List.foldlM_cons, List.foldlM_nil, hm, Bool.false_eq_true, if_false, bind,
                Except.bind, pure, Except.pure]
            · rw [globs_append, hgl] at hsrc
              rw [dirDep, if_pos hc]
              exact hsrc
        · rename_i hc
          cases hdir
          refine ⟨d, E.canon tgt, [], fuel, by rw [if_neg hc]; rfl, ?_⟩
          rw [dirDep, if_neg hc, List.append_nil]
          exact hsrc

/-- A file or source under a new path.  Names that led to something still do. -/
theorem goodD_file (hE : E.Sane) {d d' : MReg} {p t : String} {deps ds : List String} {k : Kind} (hg : GoodD E d)
    (hf : FitsD E d p) (hk : k = .file ∨ k = .source ∧ deps = [])
    (hdeps : ∀ r ∈ globs E deps, DepD E d p r)
    (h : fileInit E lim d p deps true = .ok (d', t, ds)) :
    GoodD E (d'.add (makeObj t ds) k) ∧ Follows E d (d'.add (makeObj t ds) k) ∧
    ∀ b, (d'.add (makeObj t ds) k).kind b = .dir → d.kind b = .dir ∧ (d'.add (makeObj t ds) k).reg.obj b = d.reg.obj b ∨
      MissingDir E (E.canon p) ((d'.add (makeObj t ds) k).reg.obj b).tgt := by
  obtain ⟨d1, t1, ds1, f, h1, h2⟩ := fileInit_split hf.nostar h
  obtain ⟨rfl, rfl, hkeep⟩ := fileInit_keeps hE _ _ _ _ _ _ _ _ hf.nostar h
  obtain ⟨hD, hP⟩ := goodD_dirs hE _ _ _ _ _ _ _ hf.nostar hg hf.clear h1
  have hmd : ∀ r ∈ dirDep E true (E.canon p), r = parent (E.canon p) ∧ E.ex r = false := by
    intro r hr
    unfold dirDep at hr
    split at hr
    · rename_i hc
      simp only [Bool.true_and, Bool.not_eq_true'] at hc
      rw [List.mem_singleton] at hr
      rw [hr]; exact ⟨rfl, hc⟩
    · cases hr
  have hdirs1 : ∀ b, d1.kind b = .dir → d.kind b = .dir ∧ d1.reg.obj b = d.reg.obj b ∨
      MissingDir E (E.canon p) (d1.reg.obj b).tgt := by
    intro b hb
    by_cases hlt : b < d.reg.next
    · obtain ⟨h3, h4⟩ := hD.follows.2.1 b hlt
      exact Or.inl ⟨by rw [← h4]; exact hb, h3⟩
    · exact Or.inr (hD.fresh b (by omega) (hD.good.old (by rw [hb]; simp))).2
  obtain ⟨hg2, hf2, hr2⟩ := goodD_sources hE _ _ _ hD.good (by
    intro r hr hx
    rcases List.mem_append.1 hr with hr | hr
    · rcases (hdeps r hr).2 with h | ⟨_, h0, h4, h5⟩
      · exact Or.inl (hD.follows.leads hg.wf h)
      · right
        refine ⟨fun o ho => ?_, fun b hb => ?_⟩
        · rcases hD.new r o ho with h | ⟨h6, h7, _⟩
          · rw [(hD.follows.2.1 o (hg.wf _ _ h)).2]; exact h0 o h
          · rw [(hD.fresh o h6 h7).1]; simp
        rcases hdirs1 b hb with ⟨h6, h7⟩ | h6
        · rw [h7]; exact h4 b h6
        · exact h5 _ h6
    · rw [(hmd r hr).2] at hx; cases hx) h2
  have hdirs2 : ∀ b, d'.kind b = .dir → d.kind b = .dir ∧ d'.reg.obj b = d.reg.obj b ∨
      MissingDir E (E.canon p) (d'.reg.obj b).tgt := by
    intro b hb
    by_cases hlt : b < d.reg.next
    · obtain ⟨h3, h4⟩ := hkeep.obj b hlt
      exact Or.inl ⟨by rw [← h4]; exact hb, h3⟩
    · rcases hkeep.fresh b (by omega) (hg2.old (by rw [hb]; simp)) with ⟨_, q, hq, he⟩ | ⟨h3, _⟩
      · right; rw [he]; exact hq
      · rw [hb] at h3; cases h3
  have hslot : Slot E d' (E.canon p) k := by
    left
    intro o ho
    rcases hkeep.new _ o ho with ho | ⟨h3, h4, h5⟩
    · exact hf.new o ho
    · rw [hE.idem] at h5
      rcases hkeep.fresh o h3 h4 with ⟨_, q, hq, he⟩ | ⟨_, r, hr, hx, he⟩
      · rw [he] at h5
        exact (hf.own q hq).1 h5.symm
      · rw [he] at h5
        exact (hdeps r hr).1 h5
  have hdirs3 : ∀ b, (d'.add (makeObj (E.canon p) (globs E deps ++ dirDep E true (E.canon p))) k).kind b = .dir →
      d'.kind b = .dir ∧ (d'.add (makeObj (E.canon p) (globs E deps ++ dirDep E true (E.canon p))) k).reg.obj b =
        d'.reg.obj b := by
    intro b hb
    by_cases e : b = d'.reg.next
    · subst e
      rcases hk with rfl | ⟨rfl, _⟩ <;> simp [MReg.add] at hb
    · simpa [MReg.add, Core.add, e] using hb
  have hPar : ParentDir E d' (E.canon p) := by
    intro hm
    exact hf2.dir hD.good.wf (hP rfl hm)
  refine ⟨goodD_add hg2 hslot (fun _ => hE.idem _) ?_ ?_ ?_ ?_ ?_, (hD.follows.trans hf2 hg.wf hD.good.wf).trans
    (follows_add hg2 hslot) hg.wf hg2.wf, ?_⟩
  · intro r hr
    rcases List.mem_append.1 hr with hr' | hr'
    · rcases (hdeps r hr').2 with h | ⟨hx, _⟩
      · exact hf2.leads hD.good.wf (hD.follows.leads hg.wf h)
      · exact hr2 r hr hx
    · obtain ⟨rfl, hm⟩ := hmd r hr'
      obtain ⟨b, hb, hkb, _⟩ := hPar hm
      exact ⟨b, hb, by rw [hkb]; simp⟩
  · intro hk'
    rcases hk with rfl | ⟨rfl, rfl⟩
    · rcases hk' with h | h <;> cases h
    · exact ⟨by rw [plain_eq]; simp [globs], hPar⟩
  · rintro rfl
    rcases hk with h | ⟨h, _⟩ <;> cases h
  · intro _ b hb
    rcases hdirs2 b hb with ⟨h3, h4⟩ | h3
    · rw [h4]; exact hf.notdir b h3
    · exact (hf.own _ h3).2
  · rintro rfl
    rcases hk with h | ⟨h, _⟩ <;> cases h
  · intro b hb
    obtain ⟨h3, h4⟩ := hdirs3 b hb
    rw [h4]
    exact hdirs2 b h3

/-- make.py:211-221: `source` -/
theorem goodD_source (hE : E.Sane) {d d' : MReg} {p : String} (hg : GoodD E d)
    (hf : (∃ o, Resolves E.canon d.reg p o ∧ d.kind o ≠ .dir) ∨ FitsD E d p)
    (h : sourceG E lim d p [] = .ok d') :
    GoodD E d' ∧ Follows E d d' ∧ ∀ b, d'.kind b = .dir → d.kind b = .dir ∧ d'.reg.obj b = d.reg.obj b ∨
      MissingDir E (E.canon p) (d'.reg.obj b).tgt := by
  unfold sourceG at h
  simp only at h
  split at h
  · rename_i hh
    cases h
    obtain ⟨o, ho⟩ := has_true.1 hh
    have hnd : ∀ o, Resolves E.canon d.reg p o → d.kind o ≠ .dir := by
      intro o' ho'
      rcases hf with ⟨o1, h1, h2⟩ | hf
      · rw [ho'.unique h1]; exact h2
      · intro hk
        have h1 : d.reg.targets.get (d.reg.obj o').tgt = some o' := by
          rcases ho' with h | ⟨_, h⟩
          · exact hg.self _ _ h
          · exact hg.self _ _ h
        have h2 := hg.canonT o' (hg.wf _ _ ho') (by rw [hk]; simp) (by rw [hk]; simp)
        rw [← h2, ← hg.canonEq hE.idem ho'] at h1
        exact hf.new o' (Or.inl h1)
    obtain ⟨_, h2, h3, h4, h5⟩ := has_extends hE.idem d p
    exact ⟨goodD_has hE.idem hg p hnd, follows_has hE.idem d p,
      fun b hb => Or.inl (by rw [h3]; rw [h4] at hb; exact ⟨hb, rfl⟩)⟩
  · rename_i hh
    obtain ⟨he, hf0, hf1⟩ := has_false (by simpa using hh)
    rw [he] at h
    split at h
    · cases h
    · rename_i d1 t ds h1
      cases h
      have hf' : FitsD E d p := by
        rcases hf with ⟨o, ho, _⟩ | hf
        · rcases ho with h | ⟨_, h⟩
          · rw [hf0] at h; cases h
          · rw [hf1] at h; cases h
        · exact hf
      exact goodD_file hE hg hf' (Or.inr ⟨rfl, rfl⟩) (by intro r hr; cases hr) h1

/-! ### `makedir` -/

/-- `dir` can be described by `makedir`: it is missing, no file or source is an ancestor of it, and what is registered under
its name is a directory.  That the parent directory exists is asked of the path as given, so it must also exist for the
canonical path. -/
structure FitsDir (E : Env) (c : MReg) (dir : String) : Prop where
  nostar : NoStar E dir
  missing : E.ex (E.canon dir) = false
  parent : E.ex (parent dir) = true → E.ex (Make.parent (E.canon dir)) = true
  clear : Clear E c (E.canon dir)
  nofile : ∀ a, FileLike (c.kind a) → ¬ IsAnc (c.reg.obj a).tgt (E.canon dir)
  taken : ∀ o, Resolves E.canon c.reg (E.canon dir) o → c.kind o = .dir

theorem goodD_makedir (hE : E.Sane) {fuel : Nat} {d d' : MReg} {dir : String} (hg : GoodD E d) (hf : FitsDir E d dir)
    (h : dirkeepG E fuel d dir = .ok d') :
    GoodD E d' ∧ Follows E d d' ∧
      (∃ b, d'.reg.targets.get (E.canon dir) = some b ∧ d'.kind b = .dir ∧ d'.reg.obj b = plain E (E.canon dir)) ∧
      ∀ o, d.reg.next ≤ o → o < d'.reg.next →
        d'.kind o = .dir ∧ ((d'.reg.obj o).tgt = E.canon dir ∨ MissingDir E (E.canon dir) (d'.reg.obj o).tgt) := by
  unfold dirkeepG at h
  split at h
  · cases h
  · rename_i d0 t ds h1
    cases h
    obtain ⟨hD, hP⟩ := goodD_dirs hE _ _ _ _ _ _ _ hf.nostar hg hf.clear h1
    obtain ⟨rfl, hds, hk⟩ := fileInit_keeps hE _ _ _ _ _ _ _ _ hf.nostar h1
    have hu : makeObj (E.canon dir) ds = plain E (E.canon dir) := by
      rw [plain_eq, hds]
      simp only [globs, List.flatMap_nil, List.nil_append, dirDep]
      cases hx : E.ex (parent dir) with
      | false => rfl
      | true => simp [hf.parent hx]
    have hP' : ParentDir E d0 (E.canon dir) := by
      intro he
      refine hP ?_ he
      cases hx : E.ex (parent dir) with
      | false => rfl
      | true => rw [hf.parent hx] at he; cases he
    have htaken : ∀ o, Resolves E.canon d0.reg (E.canon dir) o → d0.kind o = .dir := by
      intro o hr
      rcases hD.new _ o hr with hr | ⟨h2, h3, _⟩
      · rw [(hD.follows.2.1 o (hg.wf _ _ hr)).2]
        exact hf.taken o hr
      · exact (hD.fresh o h2 h3).1
    have hslot : Slot E d0 (E.canon dir) .dir := by
      by_cases hex : ∃ o, Resolves E.canon d0.reg (E.canon dir) o
      · obtain ⟨o, ho⟩ := hex
        refine Or.inr ⟨rfl, o, ?_, htaken o ho⟩
        rcases ho with ho | ⟨h2, h3⟩
        · exact ho
        · rw [hE.idem, h2] at h3; cases h3
      · exact Or.inl fun o ho => hex ⟨o, ho⟩
    refine ⟨goodD_add hD.good hslot (fun _ => hE.idem _) ?_ (fun _ => ⟨hu, hP'⟩) (fun _ => hf.missing) ?_ ?_,
      hD.follows.trans (follows_add hD.good hslot) hg.wf hD.good.wf, ?_, ?_⟩
    · intro x hx
      have hx' : x ∈ (plain E (E.canon dir)).deps := by rw [← hu]; exact hx
      simp only [plain, makeObj] at hx'
      split at hx'
      · cases hx'
      · rename_i he
        rw [List.mem_singleton] at hx'
        rw [hx']
        obtain ⟨b, hb, hkb, _⟩ := hP' (by simpa using he)
        exact ⟨b, hb, by rw [hkb]; simp⟩
    · rintro (h | h) <;> cases h
    · intro _ a ha
      by_cases hlt : a < d.reg.next
      · obtain ⟨h2, h3⟩ := hD.follows.2.1 a hlt
        rw [h2]
        exact hf.nofile a (by rw [← h3]; exact ha)
      · have hlt' : a < d0.reg.next := hD.good.old (by rcases ha with ha | ha <;> rw [ha] <;> simp)
        rw [(hD.fresh a (by omega) hlt').1] at ha
        rcases ha with ha | ha <;> cases ha
    · refine ⟨d0.reg.next, ?_, by simp [MReg.add], ?_⟩
      · simp only [MReg.add, Core.add, makeObj]
        exact Dict.get_set_self _ _ _
      · simp [MReg.add, Core.add, hu]
    · intro o h2 h3
      have h3 : o < d0.reg.next + 1 := h3
      by_cases he : o = d0.reg.next
      · subst he
        exact ⟨by simp [MReg.add], Or.inl (by simp [MReg.add, Core.add, makeObj])⟩
      · obtain ⟨h4, h5⟩ := hD.fresh o h2 (by omega)
        exact ⟨by simpa [MReg.add, he] using h4, Or.inr (by simpa [MReg.add, Core.add, he] using h5)⟩

/-! ### descriptions of projects in the default core -/

/-- calls of the functions of make.py without `core=`, and of `target`, `updtarget` and `routine` of the default core -/
inductive CallD where
  | source (src : String)
  | makefile (tgt : String) (deps : List String)
  | copy (tgt src : String) (adddeps : List String)
  | fileset (tgt : String) (targets deps : List String)
  | target (tgt : String) (deps : List String) (upd : Bool) (act : String)
  | makedir (dir : String)

/-- core.py:118-124 `target`, `updtarget`, 141-164 `routine_do`, `routine`, 174-204 `Target.__init__`: a target that make.py
does not know.  The patterns in its dependencies are expanded and those that exist are registered as sources. -/
def targetG (E : Env) (lim : Nat) (w : World) (tgt : String) (deps : List String) (upd : Bool) (act : String) :
    Except Err World :=
  let ret := globs E deps
  match addSources E lim w.dflt ret with
  | .error e => .error e
  | .ok d => .ok { w with dflt := d.add ⟨tgt, ret, upd, [], act⟩ .other }

/-- one call -/
def callD (E : Env) (lim : Nat) (w : World) : CallD → Except Err World
  | .source src => (sourceG E lim w.dflt src []).map fun d => { w with dflt := d }
  | .makefile tgt deps => makefileG E lim w tgt deps false
  | .copy tgt src adddeps => copyG E lim w tgt src adddeps false
  | .fileset tgt targets deps => filesetG E lim w tgt targets deps false
  | .target tgt deps upd act => targetG E lim w tgt deps upd act
  | .makedir dir => (dirkeepG E lim w.dflt dir).map fun d => { w with dflt := d }

/-- A reasonable call in the default core. -/
def ReasonableD (E : Env) (lim : Nat) (c : MReg) : CallD → Prop
  | .source src => (∃ o, Resolves E.canon c.reg src o ∧ c.kind o ≠ .dir) ∨ FitsD E c src
  | .makefile tgt deps => FitsD E c tgt ∧ ∀ r ∈ globs E deps, DepD E c tgt r
  | .copy tgt src adddeps =>
      ((∃ o, Resolves E.canon c.reg (E.home src) o ∧ c.kind o ≠ .dir) ∨ FitsD E c (E.home src)) ∧
      ∀ d, sourceG E lim c (E.home src) [] = .ok d →
        FitsD E d (E.home tgt) ∧ ∀ r ∈ globs E (E.home src :: adddeps), DepD E d (E.home tgt) r
  | .fileset tgt targets deps => (∀ o, ¬ Resolves E.canon c.reg tgt o) ∧
      ∀ r ∈ globs E (deps ++ targets), E.canon r ≠ E.canon tgt ∧ (Leads E c r ∨
        E.ex r = true ∧ (∀ o, Resolves E.canon c.reg r o → c.kind o ≠ .other) ∧
          ∀ b, c.kind b = .dir → ¬ IsAnc (E.canon r) (c.reg.obj b).tgt)
  | .target tgt deps _ _ => (∀ o, ¬ Resolves E.canon c.reg tgt o) ∧
      ∀ r ∈ globs E deps, E.canon r ≠ E.canon tgt ∧ ((∃ o, Resolves E.canon c.reg r o) ∨
        E.ex r = true ∧ ∀ b, c.kind b = .dir → ¬ IsAnc (E.canon r) (c.reg.obj b).tgt)
  | .makedir dir => FitsDir E c dir

/-- the worlds reached by reasonable calls after `import licant` -/
inductive DescribedD (E : Env) (lim : Nat) : World → Prop
  | new (own : MReg) : DescribedD E lim ⟨licantReg, own⟩
  | call {w w' : World} (c : CallD) : DescribedD E lim w → ReasonableD E lim w.dflt c →
      callD E lim w c = .ok w' → DescribedD E lim w'

theorem goodD_call (hE : E.Sane) {w w' : World} (hg : GoodD E w.dflt) {cl : CallD}
    (hr : ReasonableD E lim w.dflt cl) (h : callD E lim w cl = .ok w') : GoodD E w'.dflt ∧ Follows E w.dflt w'.dflt := by
  have hmk : ∀ {w w' : World} {tgt : String} {deps : List String}, GoodD E w.dflt → FitsD E w.dflt tgt →
      (∀ r ∈ globs E deps, DepD E w.dflt tgt r) → makefileG E lim w tgt deps false = .ok w' →
      GoodD E w'.dflt ∧ Follows E w.dflt w'.dflt := by
    intro w w' tgt deps hg hf hd h
    unfold makefileG at h
    split at h
    · cases h
    · rename_i d t ds h1
      cases h
      have := goodD_file hE hg hf (Or.inl rfl) hd h1
      exact ⟨this.1, this.2.1⟩
  have hfree : ∀ {w : World} {d : MReg} {l : List String} {tgt : String}, addSources E lim w.dflt l = .ok d →
      (∀ o, ¬ Resolves E.canon w.dflt.reg tgt o) → (∀ r ∈ l, E.canon r ≠ E.canon tgt) →
      ∀ o, ¬ Resolves E.canon d.reg tgt o := by
    intro w d l tgt h1 hno hd o ho
    have hk := addSources_keeps hE h1
    rcases hk.new _ _ ho with h | ⟨h2, h3, h4⟩
    · exact hno o h
    · obtain ⟨_, r, hr, he⟩ := hk.fresh o h2 h3
      rw [he] at h4
      exact hd r hr h4
  cases cl with
  | source src =>
    simp only [callD, Except.map] at h
    split at h
    · cases h
    · rename_i d h1
      cases h
      have := goodD_source hE hg hr h1
      exact ⟨this.1, this.2.1⟩
  | makefile tgt deps => exact hmk hg hr.1 hr.2 h
  | copy tgt src adddeps =>
    simp only [callD, copyG] at h
    split at h
    · cases h
    · rename_i d h1
      obtain ⟨h2, h3⟩ := hr.2 d h1
      obtain ⟨h4, h5, -⟩ := goodD_source hE hg hr.1 h1
      obtain ⟨h6, h7⟩ := hmk (w := { w with dflt := d }) h4 h2 h3 h
      exact ⟨h6, h5.trans h7 hg.wf h4.wf⟩
  | fileset tgt targets deps =>
    simp only [callD, filesetG] at h
    split at h
    · cases h
    · rename_i d h1
      cases h
      obtain ⟨hno, hd⟩ := hr
      obtain ⟨hg1, hf1, hr1⟩ := goodD_sources hE _ _ _ hg (fun r hr hx => by
        rcases (hd r hr).2 with h | ⟨_, h⟩
        · exact Or.inl h
        · exact Or.inr h) h1
      have hslot : Slot E d tgt .fileset := Or.inl (hfree h1 hno fun r hr => (hd r hr).1)
      refine ⟨goodD_add hg1 hslot (fun h => absurd rfl h) ?_ ?_ (by intro h; cases h)
        (by rintro (h | h) <;> cases h) (by intro h; cases h), hf1.trans (follows_add hg1 hslot) hg.wf hg1.wf⟩
      · intro r hr
        rcases (hd r hr).2 with h | ⟨hx, _⟩
        · exact hf1.leads hg.wf h
        · exact hr1 r hr hx
      · rintro (h | h) <;> cases h
  | target tgt deps upd act =>
    simp only [callD, targetG] at h
    split at h
    · cases h
    · rename_i d h1
      cases h
      obtain ⟨hno, hd⟩ := hr
      obtain ⟨hg1, hf1, hr1⟩ := goodD_sourcesR hE _ _ _ hg (fun r hr hx => by
        rcases (hd r hr).2 with h | ⟨_, h⟩
        · exact Or.inl h
        · exact Or.inr h) h1
      have hnew := hfree h1 hno fun r hr => (hd r hr).1
      refine ⟨goodD_other hg1 hnew fun r hr => ?_, hf1.trans (follows_addO hg1 (Or.inl hnew)) hg.wf hg1.wf⟩
      rcases (hd r hr).2 with h | ⟨hx, _⟩
      · exact hf1.some h
      · exact hr1 r hr hx
  | makedir dir =>
    simp only [callD, Except.map] at h
    split at h
    · cases h
    · rename_i d h1
      cases h
      have := goodD_makedir hE hg hr h1
      exact ⟨this.1, this.2.1⟩

theorem DescribedD.good (hE : E.Sane) {w : World} (h : DescribedD E lim w) : GoodD E w.dflt := by
  induction h with
  | new d => exact goodD_licantReg
  | call cl _ hr hc ih => exact (goodD_call hE ih hr hc).1

/-! ### C88 -/

/-- a directory depends on nothing but its missing parent directory -/
theorem GoodD.dirDep (h : GoodD E c) {o o' : Nat} (hk : c.kind o = .source ∨ c.kind o = .dir)
    (hd : ObjDep E.canon c.reg o o') : c.kind o' = .dir ∧ E.ex (parent (c.reg.obj o).tgt) = false ∧
      (c.reg.obj o').tgt = E.canon (parent (c.reg.obj o).tgt) := by
  obtain ⟨d, hd, hr⟩ := hd
  rw [h.plainO o hk] at hd
  simp only [plain, makeObj] at hd
  split at hd
  · cases hd
  · rename_i hx
    rw [List.mem_singleton] at hd
    subst hd
    have hx : E.ex (parent (c.reg.obj o).tgt) = false := by simpa using hx
    obtain ⟨b, h1, h2, h3⟩ := h.par o hk hx
    rw [hr.unique h1]
    exact ⟨h2, hx, h3⟩

theorem GoodD.acyclic (hE : E.Sane) (h : GoodD E c) : Acyclic E.canon c.reg := by
  have hkinds : ∀ a b, TransGen (ObjDep E.canon c.reg) a b → (c.kind a = .dir → c.kind b = .dir) ∧
      (c.kind b = .dir ∨ b < a) := by
    have one : ∀ a b, ObjDep E.canon c.reg a b → (c.kind a = .dir → c.kind b = .dir) ∧ (c.kind b = .dir ∨ b < a) := by
      intro a b hd
      refine ⟨fun hk => (h.dirDep (Or.inr hk) hd).1, ?_⟩
      obtain ⟨d, hd, hr⟩ := hd
      by_cases ho : a < c.reg.next
      · obtain ⟨o1, h1, h2⟩ := h.deps a ho d hd
        rw [hr.unique h1]; exact h2.1
      · rw [(h.blank a (by omega)).1] at hd; cases hd
    intro a b hab
    induction hab with
    | single hd => exact one _ _ hd
    | tail _ hd ih =>
      obtain ⟨h1, h2⟩ := one _ _ hd
      refine ⟨fun hk => h1 (ih.1 hk), ?_⟩
      rcases ih.2 with hk | hlt
      · exact Or.inl (h1 hk)
      · rcases h2 with hk | hlt'
        · exact Or.inl hk
        · exact Or.inr (lt_trans hlt' hlt)
  have hdirs : ∀ a b, TransGen (ObjDep E.canon c.reg) a b → c.kind a = .dir →
      ∃ i, E.ex (anc (c.reg.obj a).tgt i) = false ∧ (c.reg.obj b).tgt = E.canon (anc (c.reg.obj a).tgt i) := by
    intro a b hab hk
    induction hab with
    | single hd =>
      obtain ⟨_, h2, h3⟩ := h.dirDep (Or.inr hk) hd
      exact ⟨0, h2, h3⟩
    | tail hab hd ih =>
      obtain ⟨i, h1, h2⟩ := ih
      obtain ⟨_, h4, h5⟩ := h.dirDep (Or.inr ((hkinds _ _ hab).1 hk)) hd
      rw [h2, hE.canonParent _ _ h1] at h4 h5
      rw [hE.exCanonAnc _ (i + 1)] at h4
      rw [hE.idem] at h5
      exact ⟨i + 1, h4, h5⟩
  intro o hcyc
  rcases (hkinds o o hcyc).2 with hk | hlt
  · obtain ⟨i, h1, h2⟩ := hdirs o o hcyc hk
    have h3 : parent (c.reg.obj o).tgt = E.canon (anc (c.reg.obj o).tgt (i + 1)) := by
      conv_lhs => rw [h2]
      exact hE.canonParent _ _ h1
    have h4 : MissingAnc E (c.reg.obj o).tgt 0 := missing_anc hE (missing_anc hE h1 0 (by omega))
    have h5 : E.ex (anc (c.reg.obj o).tgt (i + 1)) = false := by
      rw [← hE.exCanonAnc, ← h3]
      exact h4 0 (le_refl _)
    have h6 : E.canon (anc (c.reg.obj o).tgt 0) = E.canon (anc (c.reg.obj o).tgt (i + 1)) := by
      rw [anc_zero, h3, hE.idem]
    have := missing_dist hE h4 (missing_anc hE h5) h6
    omega
  · exact lt_irrefl _ hlt

theorem GoodD.sound {α : Type} (hE : E.Sane) (hg : GoodD E c) (P : Proj α) (hreg : P.reg = c.reg)
    (hkind : P.kind = c.kind) (hpar : ∀ p q, q ∈ P.parents p → IsAnc q p) :
    Sound P E.canon ∧ ∀ n o, Resolves E.canon P.reg n o → AllRegistered E.canon P.reg n := by
  refine ⟨⟨?_, ?_, ?_, ?_, ?_, ?_, ?_⟩, ?_⟩
  · rw [hreg]; exact hg.keys
  · rw [hreg]; exact hg.self
  · rw [hreg]; exact hg.acyclic hE
  · rw [hreg]
    rw [hkind]
    intro o _ hk
    exact hg.upd o hk
  · rw [hreg, hkind]
    intro o o' hk hd
    exact (hg.dirDep hk hd).1
  · rw [hreg, hkind]
    rintro o o' hk ⟨d, hd, hr⟩
    have hko : c.kind o ≠ .other := by rcases hk with h | h <;> rw [h] <;> simp
    obtain ⟨o1, h1, _, h2⟩ := hg.deps o (hg.old hko) d hd
    rw [hr.unique h1]
    exact h2.resolve_left hko
  · rw [hreg, hkind]
    rintro b a - hkb ⟨na, hna⟩ hanc
    have hp := hpar _ _ hanc
    have hpath : ∀ o, P.path o = (c.reg.obj o).tgt := by
      intro o; unfold Proj.path; rw [hreg]
    rw [hpath, hpath] at hp
    have hself := hg.self na a hna
    cases hka : c.kind a with
    | file => exact absurd hp (hg.sep a b (Or.inl hka) hkb)
    | source => exact absurd hp (hg.sep a b (Or.inr hka) hkb)
    | fileset => exact Or.inl rfl
    | other => exact Or.inr (Or.inl rfl)
    | dir =>
      right; right
      refine ⟨rfl, ?_⟩
      obtain ⟨i, hi⟩ := hp
      clear hanc
      have hm := hg.dirMissing a hka
      have hcan := hg.canonT a (hg.lt na a hna) (by rw [hka]; simp) (by rw [hka]; simp)
      induction i generalizing b with
      | zero =>
        rw [hi] at hm
        obtain ⟨b1, h1, h2, h3⟩ := hg.par b (Or.inr hkb) hm
        have : b1 = a := by
          rw [hi] at hself
          exact h1.unique (Or.inl hself)
        subst this
        refine .single ⟨parent (c.reg.obj b).tgt, ?_, h1⟩
        rw [hg.plainO b (Or.inr hkb)]
        simp [plain, makeObj, show E.ex (parent (c.reg.obj b).tgt) = false from hm]
      | succ i ih =>
        have hm' := hm
        rw [hi] at hm'
        have hall := missing_anc hE hm'
        have hm0 : E.ex (parent (c.reg.obj b).tgt) = false := hall 0 (by omega)
        obtain ⟨b1, h1, h2, h3⟩ := hg.par b (Or.inr hkb) hm0
        refine .head ⟨parent (c.reg.obj b).tgt, ?_, h1⟩ (ih b1 h2 ?_)
        · rw [hg.plainO b (Or.inr hkb)]
          simp [plain, makeObj, hm0]
        · have h4 := canon_anc hE (t := (c.reg.obj b).tgt) (k := i + 1) fun j hj => hall j (by omega)
          rw [h3]
          exact (hcan.symm.trans (by rw [hi]; exact h4.symm))
  · rw [hreg]
    intro n o hr d hd
    induction hd with
    | refl => exact ⟨o, hr⟩
    | tail _ hd _ =>
      obtain ⟨o1, hr1, hd1⟩ := hd
      obtain ⟨o2, h2, _⟩ := hg.deps o1 (hg.wf _ _ hr1) _ hd1
      exact ⟨o2, h2⟩

/-- C88: a project described by reasonable calls of the functions `source`, `makefile`, `copy` and `fileset` in the
default core satisfies the assumptions of the theorems about builds, whatever its build commands are, and all closures
can be formed. -/
theorem C88_wellformed {α : Type} (hE : E.Sane) {w : World} (h : DescribedD E lim w) (P : Proj α)
    (hreg : P.reg = w.dflt.reg) (hkind : P.kind = w.dflt.kind) (hpar : ∀ p q, q ∈ P.parents p → IsAnc q p) :
    Sound P E.canon ∧ ∀ n o, Resolves E.canon P.reg n o → AllRegistered E.canon P.reg n :=
  (h.good hE).sound hE P hreg hkind hpar

/-! ### an example -/

theorem anc_mem {A : List String} (hA : ∀ a ∈ A, parent a ∈ A) {p : String} (hp : parent p ∈ A) :
    ∀ i, anc p i ∈ A := by
  intro i
  induction i with
  | zero => exact hp
  | succ i ih => rw [← parent_anc]; exact hA _ ih

/-- `FitsD` in the file system `srcEnv`, by looking at a list `A` of directories -/
theorem fitsD_src {c : MReg} {p : String} (A : List String) (hA : ∀ a ∈ A, parent a ∈ A) (hp : parent p ∈ A)
    (hpA : p ∉ A) (hs : '*' ∉ p.toList) (hsA : ∀ a ∈ A, '*' ∉ a.toList)
    (hnew : c.reg.targets.get p = none) (hdir : ∀ b, c.kind b = .dir → (c.reg.obj b).tgt ∈ A)
    (hfile : ∀ a, FileLike (c.kind a) → (c.reg.obj a).tgt ∉ A)
    (htaken : ∀ a ∈ A, ∀ o, c.reg.targets.get a = some o → c.kind o = .dir) : FitsD srcEnv c p := by
  have hres : ∀ n o, Resolves srcEnv.canon c.reg n o → c.reg.targets.get n = some o := by
    rintro n o (h | ⟨h1, h2⟩)
    · exact h
    · change c.reg.targets.get n = _ at h2; exact h2
  have hmd : ∀ q, MissingDir srcEnv p q → q ∈ A := by
    rintro q ⟨i, _, rfl⟩; exact anc_mem hA hp i
  refine ⟨⟨hs, fun q hq => hsA q (hmd q hq)⟩, ?_, ?_, ?_, ?_, ?_⟩
  · intro o ho
    have := hres _ _ ho
    change c.reg.targets.get p = some o at this
    rw [hnew] at this; cases this
  · intro q hq
    refine ⟨fun e => hpA (by have := hmd q hq; rw [← e] at this; exact this), ?_⟩
    rintro ⟨i, hi⟩
    have := anc_mem hA (hA _ (hmd q hq)) i
    rw [← hi] at this
    exact hpA this
  · rintro b hb ⟨i, hi⟩
    have := anc_mem hA (hA _ (hdir b hb)) i
    rw [← hi] at this
    exact hpA this
  · rintro a q ha hq ⟨i, hi⟩
    have := anc_mem hA (hA _ (hmd q hq)) i
    rw [← hi] at this
    exact hfile a ha this
  · rintro i o _ ho
    refine htaken (anc p i) (anc_mem hA hp i) o ?_
    rcases ho with ho | ho <;> exact hres _ _ ho

/-- the default core after `makefile("/s/out/d/b", ["/s/a"])` -/
def dfltDemo : MReg :=
  (((licantReg.add (makeObj "/s/out" []) .dir).add (makeObj "/s/out/d" ["/s/out"]) .dir).add (makeObj "/s/a" []) .source).add
    (makeObj "/s/out/d/b" ["/s/a", "/s/out/d"]) .file

theorem dfltDemo_described : DescribedD srcEnv 50 ⟨dfltDemo, noReg⟩ := by
  refine .call (.makefile "/s/out/d/b" ["/s/a"]) (.new noReg) ⟨?_, ?_⟩ rfl
  · exact fitsD_src ["/s/out/d", "/s/out", "/s", "/"] (by decide +kernel) (by decide +kernel) (by decide +kernel)
      (by decide +kernel) (by decide +kernel) (by decide +kernel) (by intro b hb; rw [licantReg_kind] at hb; cases hb)
      (by rintro a (h | h) <;> rw [licantReg_kind] at h <;> cases h)
      (by intro a ha o h; have h1 := (licantReg_get h).2.2; exfalso; revert ha h1; simp only [List.mem_cons, List.not_mem_nil, or_false]; rintro (rfl | rfl | rfl | rfl) <;> decide +kernel)
  · intro r hr
    have hgl : globs srcEnv ["/s/a"] = ["/s/a"] := by decide +kernel
    rw [hgl, List.mem_singleton] at hr
    subst hr
    refine ⟨by decide +kernel, Or.inr ⟨by decide +kernel, ?_, (by intro b hb; rw [licantReg_kind] at hb; cases hb), ?_⟩⟩
    · rintro o (h | ⟨_, h⟩) <;> exact absurd (licantReg_get h).2.2 (by decide +kernel)
    rintro q ⟨j, _, rfl⟩ ⟨i, hi⟩
    have hA : ∀ a ∈ ["/s/out/d", "/s/out", "/s", "/"], parent a ∈ ["/s/out/d", "/s/out", "/s", "/"] := by
      decide +kernel
    have h1 := anc_mem hA (p := "/s/out/d/b") (by decide +kernel) j
    have h2 := anc_mem hA (hA _ h1) i
    change "/s/a" = anc (anc "/s/out/d/b" j) i at hi
    rw [← hi] at h2
    revert h2; decide +kernel

theorem dfltDemo_made : ∀ b, dfltDemo.kind b ≠ .other → b = 4 ∨ b = 5 ∨ b = 6 ∨ b = 7 := by
  intro b hb
  have h1 : b < 8 := (dfltDemo_described.good srcEnv_sane).old hb
  have h2 : ¬ b < 4 := by
    intro h
    have h4 : b = 0 ∨ b = 1 ∨ b = 2 ∨ b = 3 := by omega
    rcases h4 with rfl | rfl | rfl | rfl <;> exact hb (by decide +kernel)
  omega

theorem dfltDemo_fits : FitsD srcEnv dfltDemo "/s/out/c" := by
  refine fitsD_src ["/s/out/d", "/s/out", "/s", "/"] (by decide +kernel) (by decide +kernel) (by decide +kernel)
    (by decide +kernel) (by decide +kernel) (by decide +kernel) ?_ ?_ ?_
  · intro b hb
    rcases dfltDemo_made b (by rw [hb]; simp) with rfl | rfl | rfl | rfl <;> first | decide +kernel | (revert hb; decide +kernel)
  · intro b hb
    rcases dfltDemo_made b (by rcases hb with h | h <;> rw [h] <;> simp) with rfl | rfl | rfl | rfl <;>
      first | decide +kernel | (rcases hb with h | h <;> revert h <;> decide +kernel)
  · intro a ha o
    simp only [List.mem_cons, List.not_mem_nil, or_false] at ha
    rcases ha with rfl | rfl | rfl | rfl
    · intro h
      have h5 : dfltDemo.reg.targets.get "/s/out/d" = some 5 := by decide +kernel
      rw [h5] at h; cases h; rfl
    · intro h
      have h5 : dfltDemo.reg.targets.get "/s/out" = some 4 := by decide +kernel
      rw [h5] at h; cases h; rfl
    · intro h
      have h5 : dfltDemo.reg.targets.get "/s" = none := by decide +kernel
      rw [h5] at h; cases h
    · intro h
      have h5 : dfltDemo.reg.targets.get "/" = none := by decide +kernel
      rw [h5] at h; cases h

/-- The assumptions of C88 can be met: `/s/out/d/b` is made of the existing file `/s/a`, `/s/out/c` of that, and both
form the set `all`; the routine `test` depends on `all`.  The directory `/s/out` is registered twice. -/
example : ∃ w, DescribedD srcEnv 50 w ∧
    w.dflt.reg.targets.keys = ["binutils", "m", "cxxm", "l", "/s/out", "/s/out/d", "/s/a", "/s/out/d/b", "/s/out/c", "all",
      "test"] ∧
    w.dflt.reg.targets.get "/s/out" = some 8 ∧ w.dflt.kind 4 = .dir ∧ w.dflt.kind 8 = .dir ∧
    (w.dflt.reg.obj 9).deps = ["/s/out/d/b", "/s/out"] := by
  have d1 : ∃ w1, DescribedD srcEnv 50 w1 ∧ w1 = ⟨(dfltDemo.add (makeObj "/s/out" []) .dir).add
      (makeObj "/s/out/c" ["/s/out/d/b", "/s/out"]) .file, noReg⟩ := by
    refine ⟨_, .call (.makefile "/s/out/c" ["/s/out/d/b"]) dfltDemo_described ⟨?_, ?_⟩ rfl, rfl⟩
    · exact dfltDemo_fits
    · intro r hr
      have hgl : globs srcEnv ["/s/out/d/b"] = ["/s/out/d/b"] := by decide +kernel
      rw [hgl, List.mem_singleton] at hr
      subst hr
      exact ⟨by decide +kernel, Or.inl ⟨7, Or.inl (by decide +kernel), by decide +kernel⟩⟩
  obtain ⟨w1, d1, rfl⟩ := d1
  have d2 : ∃ w2, DescribedD srcEnv 50 w2 ∧ w2 = ⟨((dfltDemo.add (makeObj "/s/out" []) .dir).add
      (makeObj "/s/out/c" ["/s/out/d/b", "/s/out"]) .file).add (makeObj "all" ["/s/out/d/b", "/s/out/c"]) .fileset, noReg⟩ := by
    refine ⟨_, .call (.fileset "all" ["/s/out/d/b", "/s/out/c"] []) d1 ⟨?_, ?_⟩ rfl, rfl⟩
    · rintro o (h | ⟨_, h⟩) <;> revert h <;>
        simp [srcEnv, dfltDemo, licantReg, builtin, noReg, MReg.add, Core.add, makeObj, Dict.get_set, Reg.empty, Dict.get]
    · intro r hr
      have hgl : globs srcEnv ([] ++ ["/s/out/d/b", "/s/out/c"]) = ["/s/out/d/b", "/s/out/c"] := by decide +kernel
      rw [hgl] at hr
      simp only [List.mem_cons, List.not_mem_nil, or_false] at hr
      rcases hr with rfl | rfl
      · exact ⟨by decide +kernel, Or.inl ⟨7, Or.inl (by decide +kernel), by decide +kernel⟩⟩
      · exact ⟨by decide +kernel, Or.inl ⟨9, Or.inl (by decide +kernel), by decide +kernel⟩⟩
  obtain ⟨w2, d2, rfl⟩ := d2
  refine ⟨_, .call (.target "test" ["all"] true "invoke_routine") d2 ⟨?_, ?_⟩ rfl, by decide +kernel, by decide +kernel,
    by decide +kernel, by decide +kernel, by decide +kernel⟩
  · rintro o (h | ⟨_, h⟩) <;> revert h <;>
      simp [srcEnv, dfltDemo, licantReg, builtin, noReg, MReg.add, Core.add, makeObj, Dict.get_set, Reg.empty, Dict.get]
  · intro r hr
    have hgl : globs srcEnv ["all"] = ["all"] := by decide +kernel
    rw [hgl, List.mem_singleton] at hr
    subst hr
    exact ⟨by decide +kernel, Or.inl ⟨10, Or.inl (by decide +kernel)⟩⟩

end Licant.Make
