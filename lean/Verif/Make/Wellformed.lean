/-
Projects described through the methods of `MakeCore` satisfy the assumptions of the theorems about
builds: C77.
-/
import Verif.Make.RegisterProps
import Verif.Make.Clean

set_option autoImplicit false

namespace Licant.Make
open Licant.Py Licant.Core Relation

/-! ### specification -/

/-- calls of the methods of `MakeCore`; `ftarget` stands for `touch`, too -/
inductive Call where
  | source (src : String)
  | ftarget (tgt : String) (deps : List String)
  | copy (src dst : String) (deps : List String)

/-- one call -/
def call (E : Env) (lim : Nat) (w : World) : Call → Except Err World
  | .source src => (sourceC E lim w src).map (·.1)
  | .ftarget tgt deps => (ftargetC E lim w tgt deps).map (·.1)
  | .copy src dst deps => (copyC E lim w src dst deps).map (·.1)

/-- `q` is the canonical path of a missing ancestor directory of `p` -/
def MissingDir (E : Env) (p q : String) : Prop := ∃ i, E.ex (anc p i) = false ∧ q = E.canon (anc p i)

/-- `q` is an ancestor directory of `p` -/
def IsAnc (q p : String) : Prop := ∃ i, q = anc p i

/-- The path `p` can be used for a new file:
* there are no patterns in it and it is not its own directory (like `d/.`);
* it is not registered;
* it is not a directory in which registered directories are;
* no registered file or source has to become a directory. -/
structure Fits (E : Env) (c : MReg) (p : String) : Prop where
  nostar : '*' ∉ p.toList
  new : ∀ o, ¬ Resolves E.canon c.reg (E.canon p) o
  own : ∀ q, MissingDir E p q → E.canon p ≠ q ∧ ¬ IsAnc (E.canon p) q
  notdir : ∀ b, Registered c.reg b → c.kind b = .dir → ¬ IsAnc (E.canon p) (c.reg.obj b).tgt
  nofile : ∀ a, Registered c.reg a → c.kind a ≠ .dir → ∀ q, MissingDir E p q →
    (c.reg.obj a).tgt ≠ q ∧ ¬ IsAnc (c.reg.obj a).tgt q

/-- A reasonable call: paths fit, and what a target depends on is registered before. -/
def Reasonable (E : Env) (c : MReg) : Call → Prop
  | .source src => E.home src = src ∧ '*' ∉ src.toList ∧
      ((∃ o, Resolves E.canon c.reg src o) ∨
        ∀ b, Registered c.reg b → c.kind b = .dir → ¬ IsAnc (E.canon src) (c.reg.obj b).tgt)
  | .ftarget tgt deps => Fits E c (E.home tgt) ∧ ∀ d ∈ globs E deps, ∃ o, Resolves E.canon c.reg d o
  | .copy src dst deps => Fits E c (E.home dst) ∧ '*' ∉ (E.home src).toList ∧
      E.canon (E.home src) ≠ E.canon (E.home dst) ∧
      (∀ q, MissingDir E (E.home dst) q → E.canon (E.home src) ≠ q ∧ ¬ IsAnc (E.canon (E.home src)) q) ∧
      (∀ b, Registered c.reg b → c.kind b = .dir → ¬ IsAnc (E.canon (E.home src)) (c.reg.obj b).tgt) ∧
      ∀ d ∈ globs E deps, ∃ o, Resolves E.canon c.reg d o

/-- the worlds reached by reasonable calls on a new `MakeCore` -/
inductive Described (E : Env) (lim : Nat) : World → Prop
  | new (d : MReg) : Described E lim ⟨d, noReg⟩
  | call {w w' : World} (c : Call) : Described E lim w → Reasonable E w.own c →
      call E lim w c = .ok w' → Described E lim w'

/-! ### the invariant -/

structure Good (E : Env) (c : MReg) : Prop where
  keys : c.reg.targets.keys.Nodup
  lt : ∀ n o, c.reg.targets.get n = some o → o < c.reg.next
  names : ∀ n o, c.reg.targets.get n = some o → E.canon n = (c.reg.obj o).tgt
  self : ∀ o, o < c.reg.next → c.reg.targets.get (c.reg.obj o).tgt = some o
  blank : ∀ o, c.reg.next ≤ o → (c.reg.obj o).deps = [] ∧ c.kind o = .other
  kinds : ∀ o, o < c.reg.next → c.kind o = .file ∨ c.kind o = .source ∨ c.kind o = .dir
  upd : ∀ o, o < c.reg.next → (c.reg.obj o).upd = true
  deps : ∀ o, o < c.reg.next → ∀ d ∈ (c.reg.obj o).deps, ∃ o', o' < o ∧ Resolves E.canon c.reg d o'
  src : ∀ o, c.kind o = .source → (c.reg.obj o).deps = []
  dirDeps : ∀ o, c.kind o = .dir → ∀ d ∈ (c.reg.obj o).deps, ∃ b, Resolves E.canon c.reg d b ∧ c.kind b = .dir
  dirMissing : ∀ o, c.kind o = .dir → E.ex (c.reg.obj o).tgt = false
  dirParent : ∀ o, c.kind o = .dir → E.ex (parent (c.reg.obj o).tgt) = false →
    ∃ d ∈ (c.reg.obj o).deps, ∃ b, Resolves E.canon c.reg d b ∧ c.kind b = .dir ∧
      (c.reg.obj b).tgt = parent (c.reg.obj o).tgt
  sep : ∀ a b, a < c.reg.next → c.kind b = .dir → c.kind a ≠ .dir → ¬ IsAnc (c.reg.obj a).tgt (c.reg.obj b).tgt

variable {E : Env} {lim : Nat} {c : MReg}

theorem Good.wf (h : Good E c) : Wf E.canon c := by
  intro n o hr
  rcases hr with hr | ⟨_, hr⟩
  · exact h.lt n o hr
  · exact h.lt _ o hr

theorem Good.resolves_tgt (hi : Idempotent E.canon) (h : Good E c) {n : String} {o : Nat}
    (hr : Resolves E.canon c.reg n o) : E.canon n = (c.reg.obj o).tgt := by
  rcases hr with hr | ⟨_, hr⟩
  · exact h.names n o hr
  · rw [← h.names _ o hr, hi]

theorem Good.canon_tgt (h : Good E c) {o : Nat} (ho : o < c.reg.next) :
    E.canon (c.reg.obj o).tgt = (c.reg.obj o).tgt := h.names _ _ (h.self o ho)

theorem Good.dir_lt (h : Good E c) {o : Nat} (hk : c.kind o ≠ .other) : o < c.reg.next := by
  by_contra hge
  exact hk (h.blank o (by omega)).2

theorem good_noReg : Good E noReg where
  keys := List.nodup_nil
  lt := by intro n o h; cases h
  names := by intro n o h; cases h
  self := by intro o h; cases h
  blank := fun _ _ => ⟨rfl, rfl⟩
  kinds := by intro o h; cases h
  upd := by intro o h; cases h
  deps := by intro o h; cases h
  src := by intro o h; cases h
  dirDeps := by intro o h; cases h
  dirMissing := by intro o h; cases h
  dirParent := by intro o h; cases h
  sep := by intro a b h; cases h

theorem good_has (hi : Idempotent E.canon) (h : Good E c) (n : String) : Good E (c.has E.canon n).1 := by
  obtain ⟨_, hxn, hxo, hxk, hxr⟩ := has_extends hi c n
  have htgt : ∀ m, (c.has E.canon n).1.reg.targets.get m = c.reg.targets.get m ∨
      (m = n ∧ c.reg.targets.get n = none ∧
        (c.has E.canon n).1.reg.targets.get n = c.reg.targets.get (E.canon n)) := by
    intro m
    unfold MReg.has Core.has
    simp only
    split
    · exact Or.inl rfl
    · rename_i hn
      split
      · rename_i o ho
        simp only [Dict.get_set]
        by_cases hm : n = m
        · right
          refine ⟨hm.symm, ?_, by simp [ho]⟩
          simpa [Dict.has] using hn
        · left; simp [hm]
      · exact Or.inl rfl
  have hkeys : (c.has E.canon n).1.reg.targets.keys.Nodup := by
    unfold MReg.has Core.has
    simp only
    split
    · exact h.keys
    · split
      · exact Dict.nodup_keys_set h.keys _ _
      · exact h.keys
  refine ⟨hkeys, ?_, ?_, ?_, ?_, ?_, ?_, ?_, ?_, ?_, ?_, ?_, ?_⟩
  · intro m o hg
    rw [hxn]
    rcases htgt m with e | ⟨rfl, _, e⟩
    · exact h.lt m o (e ▸ hg)
    · exact h.lt _ o (e ▸ hg)
  · intro m o hg
    rw [hxo]
    rcases htgt m with e | ⟨rfl, _, e⟩
    · exact h.names m o (e ▸ hg)
    · rw [← h.names _ o (e ▸ hg), hi]
  · intro o ho
    rw [hxn] at ho
    rw [hxo]
    have hs := h.self o ho
    rcases htgt (c.reg.obj o).tgt with e | ⟨e1, e2, _⟩
    · rw [e]; exact hs
    · rw [e1, e2] at hs; cases hs
  · intro o ho
    rw [hxn] at ho
    rw [hxo, hxk]
    exact h.blank o ho
  · intro o ho
    rw [hxn] at ho
    rw [hxk]
    exact h.kinds o ho
  · intro o ho
    rw [hxn] at ho
    rw [hxo]
    exact h.upd o ho
  · intro o ho d hd
    rw [hxn] at ho
    rw [hxo] at hd
    obtain ⟨o', h1, h2⟩ := h.deps o ho d hd
    exact ⟨o', h1, (hxr _ _).2 h2⟩
  · intro o ho
    rw [hxk] at ho
    rw [hxo]
    exact h.src o ho
  · intro o ho d hd
    rw [hxk] at ho ⊢
    rw [hxo] at hd
    obtain ⟨b, h1, h2⟩ := h.dirDeps o ho d hd
    exact ⟨b, (hxr _ _).2 h1, h2⟩
  · intro o ho
    rw [hxk] at ho
    rw [hxo]
    exact h.dirMissing o ho
  · intro o ho he
    rw [hxk] at ho ⊢
    rw [hxo] at he ⊢
    obtain ⟨d, hd, b, h1, h2⟩ := h.dirParent o ho he
    exact ⟨d, hd, b, (hxr _ _).2 h1, h2⟩
  · intro a b ha hb hk
    rw [hxn] at ha
    rw [hxk] at hb hk
    rw [hxo]
    exact h.sep a b ha hb hk

theorem good_add (h : Good E c) {t : String} {ds : List String} {k : Kind}
    (ht : E.canon t = t) (hfree : c.reg.targets.get t = none)
    (hk : k = .file ∨ k = .source ∨ k = .dir)
    (hdeps : ∀ d ∈ ds, ∃ o', Resolves E.canon c.reg d o' ∧ (k = .dir → c.kind o' = .dir))
    (hsrc : k = .source → ds = [])
    (hmiss : k = .dir → E.ex t = false)
    (hpar : k = .dir → E.ex (parent t) = false → ∃ d ∈ ds, ∃ b, Resolves E.canon c.reg d b ∧ c.kind b = .dir ∧
      (c.reg.obj b).tgt = parent t)
    (hsep1 : k ≠ .dir → ∀ b, c.kind b = .dir → ¬ IsAnc t (c.reg.obj b).tgt)
    (hsep2 : k = .dir → ∀ a, a < c.reg.next → c.kind a ≠ .dir → ¬ IsAnc (c.reg.obj a).tgt t) :
    Good E (c.add (makeObj t ds) k) := by
  have hx : Extends E.canon c (c.add (makeObj t ds) k) := add_extends (by exact ht) hfree
  have hnext : (c.add (makeObj t ds) k).reg.next = c.reg.next + 1 := rfl
  have hobj : ∀ o, (c.add (makeObj t ds) k).reg.obj o = if o = c.reg.next then makeObj t ds else c.reg.obj o :=
    fun o => rfl
  have hkind : ∀ o, (c.add (makeObj t ds) k).kind o = if o = c.reg.next then k else c.kind o := fun o => rfl
  have hget : ∀ n, (c.add (makeObj t ds) k).reg.targets.get n =
      if t = n then some c.reg.next else c.reg.targets.get n := by
    intro n
    show (c.reg.targets.set t c.reg.next).get n = _
    rw [Dict.get_set]
  have hold : ∀ o, c.kind o ≠ .other → o ≠ c.reg.next := by
    intro o ho e
    have := h.dir_lt ho
    omega
  refine ⟨Dict.nodup_keys_set h.keys _ _, ?_, ?_, ?_, ?_, ?_, ?_, ?_, ?_, ?_, ?_, ?_, ?_⟩
  · intro n o hg
    rw [hnext]
    rw [hget] at hg
    split at hg
    · cases hg; omega
    · have := h.lt n o hg; omega
  · intro n o hg
    rw [hget] at hg
    split at hg
    · rename_i e
      cases hg
      rw [hobj, if_pos rfl, ← e]
      exact ht
    · have := h.lt n o hg
      rw [hobj, if_neg (by omega)]
      exact h.names n o hg
  · intro o ho
    rw [hobj]
    by_cases e : o = c.reg.next
    · rw [if_pos e, hget, if_pos (by rfl), e]
    · rw [if_neg e, hget]
      have hs := h.self o (by omega)
      rw [if_neg (by
        intro e'
        rw [← e', hfree] at hs; cases hs)]
      exact hs
  · intro o ho
    rw [hnext] at ho
    rw [hobj, hkind, if_neg (by omega), if_neg (by omega)]
    exact h.blank o (by omega)
  · intro o ho
    rw [hkind]
    by_cases e : o = c.reg.next
    · rw [if_pos e]; exact hk
    · rw [if_neg e]; exact h.kinds o (by omega)
  · intro o ho
    rw [hobj]
    by_cases e : o = c.reg.next
    · rw [if_pos e]; rfl
    · rw [if_neg e]; exact h.upd o (by omega)
  · intro o ho d hd
    rw [hobj] at hd
    by_cases e : o = c.reg.next
    · rw [if_pos e] at hd
      obtain ⟨o', h1, _⟩ := hdeps d hd
      exact ⟨o', by rw [e]; exact h.wf d o' h1, hx.names _ _ h1⟩
    · rw [if_neg e] at hd
      obtain ⟨o', h1, h2⟩ := h.deps o (by omega) d hd
      exact ⟨o', h1, hx.names _ _ h2⟩
  · intro o ho
    rw [hkind] at ho
    rw [hobj]
    by_cases e : o = c.reg.next
    · rw [if_pos e] at ho ⊢; exact hsrc ho
    · rw [if_neg e] at ho ⊢; exact h.src o ho
  · intro o ho d hd
    rw [hkind] at ho
    rw [hobj] at hd
    have key : ∀ b, c.kind b = .dir → (c.add (makeObj t ds) k).kind b = .dir := by
      intro b hb
      rw [hkind, if_neg (hold b (by rw [hb]; simp))]
      exact hb
    by_cases e : o = c.reg.next
    · rw [if_pos e] at ho hd
      obtain ⟨o', h1, h2⟩ := hdeps d hd
      exact ⟨o', hx.names _ _ h1, key _ (h2 ho)⟩
    · rw [if_neg e] at ho hd
      obtain ⟨b, h1, h2⟩ := h.dirDeps o ho d hd
      exact ⟨b, hx.names _ _ h1, key _ h2⟩
  · intro o ho
    rw [hkind] at ho
    rw [hobj]
    by_cases e : o = c.reg.next
    · rw [if_pos e] at ho ⊢; exact hmiss ho
    · rw [if_neg e] at ho ⊢; exact h.dirMissing o ho
  · intro o ho he
    rw [hkind] at ho
    rw [hobj] at he ⊢
    have key : ∀ b, c.kind b = .dir → (c.add (makeObj t ds) k).kind b = .dir ∧
        (c.add (makeObj t ds) k).reg.obj b = c.reg.obj b := by
      intro b hb
      have := hold b (by rw [hb]; simp)
      rw [hkind, hobj, if_neg this, if_neg this]
      exact ⟨hb, rfl⟩
    by_cases e : o = c.reg.next
    · rw [if_pos e] at ho he ⊢
      obtain ⟨d, hd, b, h1, h2, h3⟩ := hpar ho he
      exact ⟨d, hd, b, hx.names _ _ h1, (key b h2).1, by rw [(key b h2).2]; exact h3⟩
    · rw [if_neg e] at ho he ⊢
      obtain ⟨d, hd, b, h1, h2, h3⟩ := h.dirParent o ho he
      exact ⟨d, hd, b, hx.names _ _ h1, (key b h2).1, by rw [(key b h2).2]; exact h3⟩
  · intro a b ha hb hka
    rw [hkind] at hb hka
    rw [hobj, hobj]
    rw [hnext] at ha
    by_cases ea : a = c.reg.next
    · rw [if_pos ea] at hka ⊢
      by_cases eb : b = c.reg.next
      · rw [if_pos eb] at hb
        exact absurd hb hka
      · rw [if_neg eb] at hb ⊢
        exact hsep1 hka b hb
    · rw [if_neg ea] at hka ⊢
      by_cases eb : b = c.reg.next
      · rw [if_pos eb] at hb ⊢
        exact hsep2 hb a (by omega) hka
      · rw [if_neg eb] at hb ⊢
        exact h.sep a b (by omega) hb hka

/-- `dirkeep` keeps the invariant -/
theorem good_dirkeep (hE : E.Sane) : ∀ (fuel : Nat) (w w' : World) (p : String) (deps : List String),
    '*' ∉ p.toList → Good E w.own →
    (∀ a, a < w.own.reg.next → w.own.kind a ≠ .dir → ∀ q, MissingDir E p q →
      (w.own.reg.obj a).tgt ≠ q ∧ ¬ IsAnc (w.own.reg.obj a).tgt q) →
    dirkeepC E lim fuel w p = .ok (w', deps) →
    Good E w'.own ∧ Extends E.canon w.own w'.own ∧
    deps = (if E.ex (parent p) then [] else [parent p]) ∧
    (∀ d ∈ deps, ∃ b, Resolves E.canon w'.own.reg d b ∧ w'.own.kind b = .dir ∧
      (w'.own.reg.obj b).tgt = E.canon d) ∧
    (∀ b, w.own.reg.next ≤ b → b < w'.own.reg.next → w'.own.kind b = .dir ∧ MissingDir E p (w'.own.reg.obj b).tgt) := by
  intro fuel
  induction fuel with
  | zero => intro w w' p deps _ _ _ h; cases h
  | succ fuel ih =>
    intro w w' p deps hstar hg hnf h
    unfold dirkeepC at h
    split at h
    · rename_i hex
      split at h
      · cases h
      · rename_i w1 deps1 hd
        have hup : ∀ q, MissingDir E (parent p) q → MissingDir E p q := by
          rintro q ⟨i, h1, h2⟩
          exact ⟨i + 1, h1, h2⟩
        obtain ⟨hg1, hx1, hdeps1, hres1, hnew1⟩ := ih w w1 (parent p) deps1 (nostar_anc hstar 0) hg
          (fun a ha hk q hq => hnf a ha hk q (hup q hq)) hd
        have hm0 : MissingDir E p (E.canon (parent p)) := ⟨0, hex, rfl⟩
        have hnf1 : ∀ a, a < w1.own.reg.next → w1.own.kind a ≠ .dir → ∀ q, MissingDir E p q →
            (w1.own.reg.obj a).tgt ≠ q ∧ ¬ IsAnc (w1.own.reg.obj a).tgt q := by
          intro a ha hk q hq
          by_cases hold : a < w.own.reg.next
          · have := hx1.obj a hold
            rw [this.1]
            rw [this.2] at hk
            exact hnf a hold hk q hq
          · exact absurd (hnew1 a (by omega) ha).1 hk
        obtain ⟨hx, hxn, hxo, hxk, hxr⟩ := has_extends hE.idem w1.own (parent p)
        have hgh := good_has hE.idem hg1 (parent p)
        simp only at h
        split at h
        · rename_i hh
          simp only [Except.ok.injEq, Prod.mk.injEq] at h
          obtain ⟨rfl, rfl⟩ := h
          obtain ⟨b, hb⟩ := has_true.1 hh
          refine ⟨hgh, hx1.trans hx, by rw [hex]; rfl, ?_, ?_⟩
          · intro d hd
            rw [List.mem_singleton] at hd
            subst hd
            have ht := hg1.resolves_tgt hE.idem hb
            refine ⟨b, (hxr _ _).2 hb, ?_, ?_⟩
            · show (w1.own.has E.canon (parent p)).1.kind b = .dir
              rw [hxk]
              by_contra hk
              exact (hnf1 b (hg1.wf _ _ hb) hk _ hm0).1 ht.symm
            · show ((w1.own.has E.canon (parent p)).1.reg.obj b).tgt = _
              rw [hxo, ht]
          · intro b h1 h2
            simp only at h2 ⊢
            rw [hxn] at h2
            rw [hxo, hxk]
            exact ⟨(hnew1 b h1 h2).1, hup _ (hnew1 b h1 h2).2⟩
        · rename_i hh
          have hh : (w1.own.has E.canon (parent p)).2 = false := by simpa using hh
          obtain ⟨he, hf1, hf2⟩ := has_false hh
          rw [he] at h
          split at h
          · cases h
          · rename_i w2 o2 hm
            simp only [Except.ok.injEq, Prod.mk.injEq] at h
            obtain ⟨rfl, rfl⟩ := h
            obtain ⟨hown, rfl⟩ := addFileC_ok hm
            simp only at hown
            have hgl : globs E deps1 = deps1 := by
              apply globs_id
              intro d hd
              rw [hdeps1] at hd
              split at hd
              · cases hd
              · rw [List.mem_singleton] at hd
                rw [hd]; exact nostar_anc hstar 1
            rw [hgl] at hown
            have hcp : parent (E.canon (parent p)) = E.canon (parent (parent p)) := hE.canonParent p 0 hex
            have hg2 : Good E w2.own := by
              rw [hown]
              refine good_add hg1 (hE.idem _) hf2 (Or.inr (Or.inr rfl)) ?_ (by intro e; cases e) ?_ ?_ ?_ ?_
              · intro d hd
                obtain ⟨b, h1, h2, _⟩ := hres1 d hd
                exact ⟨b, h1, fun _ => h2⟩
              · intro _; rw [hE.exCanonParent]; exact hex
              · intro _ hpe
                rw [hcp, hE.exCanonParent] at hpe
                have hmem : parent (parent p) ∈ deps1 := by rw [hdeps1, hpe]; simp
                obtain ⟨b, h1, h2, h3⟩ := hres1 _ hmem
                exact ⟨_, hmem, b, h1, h2, by rw [h3, hcp]⟩
              · intro e; exact absurd rfl e
              · intro _ a ha hk
                exact (hnf1 a ha hk _ hm0).2
            have hx2 : Extends E.canon w1.own w2.own := by
              rw [hown]
              exact add_extends (by exact hE.idem _) hf2
            refine ⟨hg2, hx1.trans hx2, by rw [hex]; rfl, ?_, ?_⟩
            · intro d hd
              rw [List.mem_singleton] at hd
              subst hd
              have ho : w2.own.reg.obj w1.own.reg.next = makeObj (E.canon (parent p)) deps1 := by
                rw [hown]; simp [MReg.add, Core.add]
              have hk2 : w2.own.kind w1.own.reg.next = .dir := by rw [hown]; simp [MReg.add]
              have hlt : w1.own.reg.next < w2.own.reg.next := by rw [hown]; exact Nat.lt_succ_self _
              have hs := hg2.self _ hlt
              rw [ho] at hs
              refine ⟨w1.own.reg.next, ?_, hk2, by rw [ho]; rfl⟩
              by_cases hn : parent p = E.canon (parent p)
              · left; rw [hn]; exact hs
              · right
                refine ⟨?_, hs⟩
                rw [hown]
                show (w1.own.reg.targets.set (E.canon (parent p)) _).get _ = none
                rw [Dict.get_set_ne _ _ (Ne.symm hn)]
                exact hf1
            · intro b h1 h2
              have hnext : w2.own.reg.next = w1.own.reg.next + 1 := by rw [hown]; rfl
              by_cases hb : b < w1.own.reg.next
              · have := hx2.obj b hb
                rw [this.1, this.2]
                exact ⟨(hnew1 b h1 hb).1, hup _ (hnew1 b h1 hb).2⟩
              · obtain rfl : b = w1.own.reg.next := by omega
                rw [hown]
                refine ⟨by simp [MReg.add], ?_⟩
                simp only [MReg.add, Core.add, if_true, makeObj]
                exact hm0
    · rename_i hex
      have hex : E.ex (parent p) = true := by simpa using hex
      simp only [Except.ok.injEq, Prod.mk.injEq] at h
      obtain ⟨rfl, rfl⟩ := h
      refine ⟨hg, .refl _, by rw [hex]; rfl, ?_, ?_⟩
      · intro d hd; cases hd
      · intro b h1 h2; omega

theorem registered_lt (h : Good E c) {o : Nat} : Registered c.reg o ↔ o < c.reg.next := by
  constructor
  · rintro ⟨n, hn⟩; exact h.lt n o hn
  · intro ho; exact ⟨_, h.self o ho⟩

theorem free_of {t : String} (hno : ∀ o, ¬ Resolves E.canon c.reg t o) : c.reg.targets.get t = none := by
  cases hg : c.reg.targets.get t with
  | none => rfl
  | some o => exact absurd (Or.inl hg) (hno o)

/-- adding the file target itself -/
theorem good_file (hE : E.Sane) {w w' : World} {p : String} {all : List String} {o : Nat}
    (hg : Good E w.own) (hfree : w.own.reg.targets.get (E.canon p) = none)
    (hdeps : ∀ d ∈ globs E all, ∃ o', Resolves E.canon w.own.reg d o')
    (hsep : ∀ b, w.own.kind b = .dir → ¬ IsAnc (E.canon p) (w.own.reg.obj b).tgt)
    (h : addFileC E lim w p all .file = .ok (w', o)) : Good E w'.own := by
  obtain ⟨hown, rfl⟩ := addFileC_ok h
  rw [hown]
  refine good_add hg (hE.idem _) hfree (Or.inl rfl) ?_ (by intro e; cases e) (by intro e; cases e)
    (by intro e; cases e) (fun _ => hsep) (by intro e; cases e)
  intro d hd
  obtain ⟨o', ho'⟩ := hdeps d hd
  exact ⟨o', ho', by intro e; cases e⟩

theorem good_source (hE : E.Sane) {w w' : World} {src : String} {o : Nat} (hg : Good E w.own)
    (hh : E.home src = src)
    (hsep : (∃ o, Resolves E.canon w.own.reg src o) ∨
      ∀ b, w.own.kind b = .dir → ¬ IsAnc (E.canon src) (w.own.reg.obj b).tgt)
    (h : sourceC E lim w src = .ok (w', o)) : Good E w'.own := by
  unfold sourceC at h
  simp only at h
  split at h
  · split at h
    · cases h
    · cases h
      exact good_has hE.idem hg src
  · rename_i hh'
    have hh' : (w.own.has E.canon src).2 = false := by simpa using hh'
    obtain ⟨he, hf1, hf2⟩ := has_false hh'
    rw [he, hh] at h
    obtain ⟨hown, rfl⟩ := addFileC_ok h
    simp only at hown
    rw [hown]
    have hsep' : ∀ b, w.own.kind b = .dir → ¬ IsAnc (E.canon src) (w.own.reg.obj b).tgt := by
      rcases hsep with ⟨o, ho⟩ | hsep
      · rw [has_true.2 ⟨o, ho⟩] at hh'; cases hh'
      · exact hsep
    refine good_add hg (hE.idem _) hf2 (Or.inr (Or.inl rfl)) ?_ (fun _ => rfl) (by intro e; cases e)
      (by intro e; cases e) (fun _ => hsep') (by intro e; cases e)
    intro d hd
    cases hd

theorem fits_dirkeep (hE : E.Sane) {w w1 : World} {p : String} {deps : List String} {fuel : Nat}
    (hg : Good E w.own) (hf : Fits E w.own p) (h : dirkeepC E lim fuel w p = .ok (w1, deps)) :
    Good E w1.own ∧ Extends E.canon w.own w1.own ∧
    (∀ d ∈ globs E deps, ∃ o', Resolves E.canon w1.own.reg d o') ∧
    w1.own.reg.targets.get (E.canon p) = none ∧
    (∀ t, (∀ q, MissingDir E p q → E.canon t ≠ q ∧ ¬ IsAnc (E.canon t) q) →
      (∀ b, Registered w.own.reg b → w.own.kind b = .dir → ¬ IsAnc (E.canon t) (w.own.reg.obj b).tgt) →
      ∀ b, w1.own.kind b = .dir → ¬ IsAnc (E.canon t) (w1.own.reg.obj b).tgt) ∧
    (∀ t o, (∀ q, MissingDir E p q → E.canon t ≠ q) → Resolves E.canon w1.own.reg t o →
      Resolves E.canon w.own.reg t o) := by
  obtain ⟨hg1, hx1, hdeps1, hres1, hnew1⟩ := good_dirkeep hE fuel w w1 p deps hf.nostar hg
    (fun a ha hk q hq => hf.nofile a ((registered_lt hg).2 ha) hk q hq) h
  obtain ⟨_, _, _, _, hres⟩ := dirkeepC_ok hE.idem fuel w w1 p deps (nostar_anc hf.nostar)
    (fun i j h1 h2 e => missing_dist hE h1 h2 e) hg.wf h
  have hback : ∀ t o, (∀ q, MissingDir E p q → E.canon t ≠ q) → Resolves E.canon w1.own.reg t o →
      Resolves E.canon w.own.reg t o := by
    intro t o ht ho
    rcases hres t o ho with h | ⟨h1, h2, h3⟩
    · exact h
    · exact absurd h3 (ht _ (hnew1 o h1 h2).2)
  refine ⟨hg1, hx1, ?_, ?_, ?_, hback⟩
  · intro d hd
    rw [globs_id] at hd
    · obtain ⟨b, hb, _⟩ := hres1 d hd
      exact ⟨b, hb⟩
    · intro d hd
      rw [hdeps1] at hd
      split at hd
      · cases hd
      · rw [List.mem_singleton] at hd
        rw [hd]; exact nostar_anc hf.nostar 0
  · refine free_of (E := E) ?_
    intro o ho
    refine hf.new o (hback _ o ?_ ho)
    intro q hq
    rw [hE.idem]
    exact (hf.own q hq).1
  · intro t h1 h2 b hb
    have hlt := hg1.dir_lt (o := b) (by rw [hb]; simp)
    by_cases hold : b < w.own.reg.next
    · have := hx1.obj b hold
      rw [this.1]
      rw [this.2] at hb
      exact h2 b ((registered_lt hg).2 hold) hb
    · exact (h1 _ (hnew1 b (by omega) hlt).2).2

theorem good_call (hE : E.Sane) {w w' : World} (hg : Good E w.own) {cl : Call}
    (hr : Reasonable E w.own cl) (h : call E lim w cl = .ok w') : Good E w'.own := by
  cases cl with
  | source src =>
    obtain ⟨hh, _, hs⟩ := hr
    simp only [call, Except.map] at h
    split at h
    · cases h
    · rename_i r hs'
      obtain ⟨w1, o⟩ := r
      cases h
      refine good_source hE hg hh ?_ hs'
      rcases hs with hs | hs
      · exact Or.inl hs
      · right
        intro b hb
        exact hs b ((registered_lt hg).2 (hg.dir_lt (by rw [hb]; simp))) hb
  | ftarget tgt deps =>
    obtain ⟨hf, hd⟩ := hr
    simp only [call, Except.map] at h
    split at h
    · cases h
    · rename_i r hs'
      obtain ⟨w2, o⟩ := r
      cases h
      unfold ftargetC at hs'
      split at hs'
      · cases hs'
      · rename_i w1 dd hdk
        obtain ⟨hg1, hx1, hdd, hfree, hsep, _⟩ := fits_dirkeep hE hg hf hdk
        refine good_file hE hg1 hfree ?_ (hsep _ hf.own hf.notdir) hs'
        intro d hd'
        rw [globs_append, List.mem_append] at hd'
        rcases hd' with h | h
        · obtain ⟨o', ho'⟩ := hd d h
          exact ⟨o', hx1.names _ _ ho'⟩
        · exact hdd d h
  | copy src dst deps =>
    obtain ⟨hf, hstar, hne, hown, hdirs, hd⟩ := hr
    simp only [call, Except.map] at h
    split at h
    · cases h
    · rename_i r hs'
      obtain ⟨w3, o⟩ := r
      cases h
      unfold copyC at hs'
      split at hs'
      · cases hs'
      · rename_i w1 dd hdk
        obtain ⟨hg1, hx1, hdd, hfree, hsep, hback⟩ := fits_dirkeep hE hg hf hdk
        split at hs'
        · cases hs'
        · rename_i w2 o2 hsrc
          have hsepS := hsep (E.home src) hown hdirs
          have hg2 := good_source hE hg1 (hE.home src) (Or.inr hsepS) hsrc
          obtain ⟨hx2, _, hr2, honly, hnew, hold⟩ := sourceC_ok hE hg1.wf (hE.home src) hsrc
          have hsepD := hsep _ hf.own hf.notdir
          have hlt2 : ∀ b, w2.own.kind b = .dir → b < w1.own.reg.next := by
            intro b hb
            by_contra hge
            have hlt := hg2.dir_lt (o := b) (by rw [hb]; simp)
            have := honly b (by omega) hlt
            subst this
            rw [(hnew (by omega)).1] at hb; cases hb
          refine good_file hE hg2 ?_ ?_ ?_ hs'
          · refine free_of (E := E) ?_
            intro o' ho'
            have htgt := hg2.resolves_tgt hE.idem ho'
            rw [hE.idem] at htgt
            by_cases hlt : o' < w1.own.reg.next
            · have hs := hg1.self o' hlt
              rw [← (hx2.obj o' hlt).1, ← htgt, hfree] at hs
              cases hs
            · have hlt' := hg2.wf _ _ ho'
              have := honly o' (by omega) hlt'
              subst this
              rw [(hnew (by omega)).2.1] at htgt
              exact hne htgt.symm
          · intro d hd'
            rw [show E.home src :: dd ++ deps = [E.home src] ++ (dd ++ deps) from rfl, globs_append,
              globs_append, List.mem_append, List.mem_append] at hd'
            rcases hd' with h | h | h
            · have : d = E.home src := by simpa [globs, hstar] using h
              rw [this]
              exact ⟨o2, hr2⟩
            · obtain ⟨o', ho'⟩ := hdd d h
              exact ⟨o', hx2.names _ _ ho'⟩
            · obtain ⟨o', ho'⟩ := hd d h
              exact ⟨o', hx2.names _ _ (hx1.names _ _ ho')⟩
          · intro b hb
            have hlt := hlt2 b hb
            have := hx2.obj b hlt
            rw [this.1]
            rw [this.2] at hb
            exact hsepD b hb

theorem Described.good (hE : E.Sane) {w : World} (h : Described E lim w) : Good E w.own := by
  induction h with
  | new d => exact good_noReg
  | call cl _ hr hc ih => exact good_call hE ih hr hc

/-! ### C77 -/

/-- C77: a project described by reasonable calls of `MakeCore` methods satisfies the assumptions of the
theorems about builds, whatever its build commands are, and all closures can be formed. -/
theorem C77_wellformed {α : Type} (hE : E.Sane) {w : World} (h : Described E lim w) (P : Proj α)
    (hreg : P.reg = w.own.reg) (hkind : P.kind = w.own.kind)
    (hpar : ∀ p q, q ∈ P.parents p → IsAnc q p) :
    Sound P E.canon ∧ ∀ n o, Resolves E.canon P.reg n o → AllRegistered E.canon P.reg n := by
  have hg := h.good hE
  have hlt : ∀ o o', ObjDep E.canon w.own.reg o o' → o' < o := by
    rintro o o' ⟨d, hd, hr⟩
    by_cases ho : o < w.own.reg.next
    · obtain ⟨o1, h1, h2⟩ := hg.deps o ho d hd
      have := h2.unique hr
      omega
    · rw [(hg.blank o (by omega)).1] at hd; cases hd
  refine ⟨⟨?_, ?_, ?_, ?_, ?_, ?_, ?_⟩, ?_⟩
  · rw [hreg]; exact hg.keys
  · rw [hreg]
    intro n o hn
    exact hg.self o (hg.lt n o hn)
  · rw [hreg]
    intro o hcyc
    have : ∀ a b, TransGen (ObjDep E.canon w.own.reg) a b → b < a := by
      intro a b hab
      induction hab with
      | single h => exact hlt _ _ h
      | tail _ h ih => exact lt_trans (hlt _ _ h) ih
    exact lt_irrefl _ (this o o hcyc)
  · rw [hreg]
    intro o ho _
    exact hg.upd o ((registered_lt hg).1 ho)
  · rw [hreg, hkind]
    intro o o' hk hd
    obtain ⟨d, hd, hr⟩ := hd
    rcases hk with hk | hk
    · rw [hg.src o hk] at hd; cases hd
    · obtain ⟨b, h1, h2⟩ := hg.dirDeps o hk d hd
      rw [hr.unique h1]; exact h2
  · rw [hreg, hkind]
    rintro o o' _ ⟨d, hd, hr⟩
    have := hg.kinds o' (hg.wf _ _ hr)
    rcases this with h | h | h <;> rw [h] <;> simp
  · rw [hreg, hkind]
    intro b a hb hkb ha hanc
    have hb' := (registered_lt hg).1 hb
    have ha' := (registered_lt hg).1 ha
    have hp := hpar _ _ hanc
    have hpath : ∀ o, P.path o = (w.own.reg.obj o).tgt := by
      intro o; unfold Proj.path; rw [hreg]
    rw [hpath, hpath] at hp
    right; right
    have hka : w.own.kind a = .dir := by
      by_contra hk
      exact hg.sep a b ha' hkb hk hp
    refine ⟨hka, ?_⟩
    obtain ⟨i, hi⟩ := hp
    clear hanc
    induction i generalizing b with
    | zero =>
      have hm := hg.dirMissing a hka
      rw [hi] at hm
      obtain ⟨d, hd, b1, h1, h2, h3⟩ := hg.dirParent b hkb hm
      have : b1 = a := by
        have hs1 := hg.self b1 (hg.wf _ _ h1)
        have hs2 := hg.self a ha'
        rw [h3] at hs1
        rw [hi] at hs2
        change w.own.reg.targets.get (parent _) = some a at hs2
        rw [hs1] at hs2
        cases hs2; rfl
      subst this
      exact .single ⟨d, hd, h1⟩
    | succ i ih =>
      have hm := hg.dirMissing a hka
      rw [hi] at hm
      have hm0 : E.ex (parent (w.own.reg.obj b).tgt) = false := missing_anc hE hm 0 (by omega)
      obtain ⟨d, hd, b1, h1, h2, h3⟩ := hg.dirParent b hkb hm0
      have hb1 := hg.wf _ _ h1
      exact .head ⟨d, hd, h1⟩ (ih b1 ((registered_lt hg).2 hb1) h2 hb1 (by rw [h3]; exact hi))
  · rw [hreg]
    intro n o hr d hd
    induction hd with
    | refl => exact ⟨o, hr⟩
    | tail _ hd _ =>
      obtain ⟨o1, hr1, hd1⟩ := hd
      obtain ⟨o2, _, h2⟩ := hg.deps o1 (hg.wf _ _ hr1) _ hd1
      exact ⟨o2, h2⟩

/-- The project with the source `/s/a` and the target `/s/out/d/b` made from it, described on a new
`MakeCore`; `/s/out` does not exist.  So the assumptions of C77 can be met. -/
example : ∃ w, Described srcEnv 50 w ∧
    w.own.reg.targets.keys = ["/s/a", "/s/out", "/s/out/d", "/s/out/d/b"] ∧
    (w.own.reg.obj 3).deps = ["/s/a", "/s/out/d"] := by
  obtain ⟨w1, h1, hk1, hn1, ht1, hg1⟩ : ∃ w1, call srcEnv 50 ⟨noReg, noReg⟩ (.source "/s/a") = .ok w1 ∧
      w1.own.kind 0 = .source ∧ w1.own.reg.next = 1 ∧ (w1.own.reg.obj 0).tgt = "/s/a" ∧
      w1 = ⟨noReg, noReg.add (makeObj "/s/a" []) .source⟩ :=
    ⟨_, rfl, by decide +kernel, by decide +kernel, by decide +kernel, rfl⟩
  have d1 : Described srcEnv 50 w1 := by
    refine .call (.source "/s/a") (.new noReg) ⟨rfl, by decide, Or.inr ?_⟩ h1
    rintro b ⟨n, hn⟩
    cases hn
  have hreg : ∀ o, Registered w1.own.reg o → o = 0 := by
    intro o ho
    have := (registered_lt (d1.good srcEnv_sane)).1 ho
    omega
  have hmiss : ∀ q, MissingDir srcEnv "/s/out/d/b" q → q = "/s/out/d" ∨ q = "/s/out" := by
    rintro q ⟨i, hi, rfl⟩
    have := anc_demo i
    change anc "/s/out/d/b" i = _ ∨ anc "/s/out/d/b" i = _
    generalize anc "/s/out/d/b" i = q at hi this
    simp only [List.mem_cons, List.not_mem_nil, or_false] at this
    rcases this with rfl | rfl | rfl | rfl
    · exact Or.inl rfl
    · exact Or.inr rfl
    · revert hi; decide +kernel
    · revert hi; decide +kernel
  have hanc : ∀ q i, q = "/s/out/d" ∨ q = "/s/out" → anc q i ∈ ["/s/out", "/s", "/"] := by
    intro q i hq
    induction i with
    | zero => rcases hq with rfl | rfl <;> decide +kernel
    | succ i ih =>
      rw [← parent_anc]
      generalize anc q i = r at ih
      simp only [List.mem_cons, List.not_mem_nil, or_false] at ih
      rcases ih with rfl | rfl | rfl <;> decide +kernel
  have hfit : Fits srcEnv w1.own "/s/out/d/b" := by
    refine ⟨by decide, ?_, ?_, ?_, ?_⟩
    · subst hg1
      rintro o (h | ⟨_, h⟩)
      · revert h; simp [srcEnv, noReg, MReg.add, Core.add, makeObj, Dict.get_set, Reg.empty, Dict.get]
      · revert h; simp [srcEnv, noReg, MReg.add, Core.add, makeObj, Dict.get_set, Reg.empty, Dict.get]
    · intro q hq
      have h2 := hmiss q hq
      refine ⟨by rcases h2 with rfl | rfl <;> decide +kernel, ?_⟩
      rintro ⟨i, hi⟩
      have := hanc q i h2
      rw [← hi] at this
      revert this; decide +kernel
    · intro b hb hk
      rw [hreg b hb, hk1] at hk; cases hk
    · intro a ha _ q hq
      rw [hreg a ha, ht1]
      have h2 := hmiss q hq
      refine ⟨by rcases h2 with rfl | rfl <;> decide +kernel, ?_⟩
      rintro ⟨i, hi⟩
      have := hanc q i h2
      rw [← hi] at this
      revert this; decide +kernel
  obtain ⟨w2, h2, hk2, hd2⟩ : ∃ w2, call srcEnv 50 w1 (.ftarget "/s/out/d/b" ["/s/a"]) = .ok w2 ∧
      w2.own.reg.targets.keys = ["/s/a", "/s/out", "/s/out/d", "/s/out/d/b"] ∧
      (w2.own.reg.obj 3).deps = ["/s/a", "/s/out/d"] := by
    subst hg1
    exact ⟨_, rfl, by decide +kernel, by decide +kernel⟩
  refine ⟨w2, .call (.ftarget "/s/out/d/b" ["/s/a"]) d1 ⟨hfit, ?_⟩ h2, hk2, hd2⟩
  intro d hd
  have : d = "/s/a" := by
    have hgl : globs srcEnv ["/s/a"] = ["/s/a"] := by decide +kernel
    rw [hgl] at hd
    simpa using hd
  rw [this, ← ht1]
  exact ⟨0, Or.inl ((d1.good srcEnv_sane).self 0 (by omega))⟩

end Licant.Make
