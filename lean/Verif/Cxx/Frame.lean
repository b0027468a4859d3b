/-
Registering the files of a module leaves the commands of older targets alone.
-/
import Verif.Cxx.Parts

set_option autoImplicit false

namespace Licant.Cxx
open Licant.Py Licant.Core Licant.Make
open Licant.Modules (Val Opts Toolchain Lib)

/-! ### Specification -/

/-- What is registered in `L` is registered in `L'`: every name leads to the same target (or from a directory to a new target
for the same directory), with the same dependencies and the same command. -/
structure Frame (S : Site) (L L' : LReg) : Prop where
  follows : Follows S.env L.m L'.m
  same : ∀ o, o < L.m.reg.next → L'.cmd o = L.cmd o ∧ L'.force o = L.force o

theorem Frame.refl {S : Site} {L : LReg} : Frame S L L := ⟨.refl, fun _ _ => ⟨rfl, rfl⟩⟩

theorem Frame.trans {S : Site} {a b c : LReg} (h : Frame S a b) (h' : Frame S b c) (hw : Wf S.env.canon a.m)
    (hw' : Wf S.env.canon b.m) : Frame S a c := by
  refine ⟨h.follows.trans h'.follows hw hw', fun o ho => ?_⟩
  obtain ⟨h1, h2⟩ := h.same o ho
  obtain ⟨h3, h4⟩ := h'.same o (lt_of_lt_of_le ho h.follows.1)
  exact ⟨h3.trans h1, h4.trans h2⟩

/-! ### Objects are never forgotten -/

variable {E : Env}

theorem next_has (c : MReg) (n : String) : (c.has E.canon n).1.reg.next = c.reg.next := by
  unfold MReg.has Core.has
  simp only
  split
  · rfl
  · split <;> rfl

theorem fileInit_next : ∀ (fuel : Nat) (d d' : MReg) (tgt t : String) (deps ds : List String) (u : Bool),
    fileInit E fuel d tgt deps u = .ok (d', t, ds) → d.reg.next ≤ d'.reg.next := by
  intro fuel
  induction fuel with
  | zero => intro d d' tgt t deps ds u h; cases h
  | succ fuel ih =>
    intro d d' tgt t deps ds u h
    rw [fileInit] at h
    have hsrc : ∀ (l : List String) (d d' : MReg), l.foldlM (fun d r =>
        if E.ex r then
          let h := d.has E.canon r
          if h.2 then .ok h.1
          else match fileInit E fuel h.1 r [] true with
            | .error e => .error e
            | .ok (d, t, ds) => .ok (d.add (makeObj t ds) .source)
        else .ok d) d = Except.ok (ε := Err) d' → d.reg.next ≤ d'.reg.next := by
      intro l
      induction l with
      | nil => intro d d' h; cases h; exact le_refl _
      | cons r l ihl =>
        intro d d' h
        simp only [List.foldlM_cons, bind, Except.bind] at h
        split at h
        · cases h
        · rename_i d1 h1
          refine le_trans ?_ (ihl d1 d' h)
          split at h1
          · split at h1
            · cases h1; exact le_of_eq (next_has _ _).symm
            · split at h1
              · cases h1
              · rename_i x d2 t2 ds2 h2
                cases h1
                have := ih _ _ _ _ _ _ _ h2
                rw [next_has] at this
                exact le_trans this (Nat.le_succ _)
          · cases h1; exact le_refl _
    by_cases hu : (u && !E.ex (parent (E.canon tgt))) = true
    · simp only [hu, if_true] at h
      split at h
      · cases h
      · rename_i d1 deps1 hd
        split at hd
        · cases hd
        · rename_i d2 t2 ds2 h2
          simp only [Except.ok.injEq, Prod.mk.injEq] at hd
          obtain ⟨rfl, rfl⟩ := hd
          split at h
          · cases h
          · rename_i d3 h3
            simp only [Except.ok.injEq, Prod.mk.injEq] at h
            obtain ⟨rfl, rfl, rfl⟩ := h
            exact le_trans (le_trans (ih _ _ _ _ _ _ _ h2) (Nat.le_succ _)) (hsrc _ _ _ h3)
    · have hu' : (u && !E.ex (parent (E.canon tgt))) = false := by
        cases hb : (u && !E.ex (parent (E.canon tgt))) with
        | true => exact absurd hb hu
        | false => rfl
      simp only [hu', Bool.false_eq_true, if_false] at h
      split at h
      · cases h
      · rename_i d3 h3
        simp only [Except.ok.injEq, Prod.mk.injEq] at h
        obtain ⟨rfl, rfl, rfl⟩ := h
        exact hsrc _ _ _ h3

theorem addSources_next {fuel : Nat} : ∀ (l : List String) (d d' : MReg), addSources E fuel d l = .ok d' →
    d.reg.next ≤ d'.reg.next := by
  intro l
  induction l with
  | nil => intro d d' h; cases h; exact le_refl _
  | cons r l ihl =>
    intro d d' h
    unfold addSources at h
    simp only [List.foldlM_cons, bind, Except.bind] at h
    split at h
    · cases h
    · rename_i d1 h1
      refine le_trans ?_ (ihl d1 d' h)
      split at h1
      · split at h1
        · cases h1; exact le_of_eq (next_has _ _).symm
        · split at h1
          · cases h1
          · rename_i x d2 t2 ds2 h2
            cases h1
            have := fileInit_next _ _ _ _ _ _ _ _ h2
            rw [next_has] at this
            exact le_trans this (Nat.le_succ _)
      · cases h1; exact le_refl _

/-! ### Commands are never changed -/

/-- the commands of the targets in `L` are the same in `L'` -/
def Older (L L' : LReg) : Prop :=
  L.m.reg.next ≤ L'.m.reg.next ∧ ∀ o, o < L.m.reg.next → L'.cmd o = L.cmd o ∧ L'.force o = L.force o

theorem Older.refl {L : LReg} : Older L L := ⟨le_refl _, fun _ _ => ⟨rfl, rfl⟩⟩

theorem Older.trans {a b c : LReg} (h : Older a b) (h' : Older b c) : Older a c :=
  ⟨le_trans h.1 h'.1, fun o ho => ⟨(h'.2 o (lt_of_lt_of_le ho h.1)).1.trans (h.2 o ho).1,
    (h'.2 o (lt_of_lt_of_le ho h.1)).2.trans (h.2 o ho).2⟩⟩

variable {S : Site} {L L' : LReg}

theorem addFile_older {t : String} {deps : List String} {f : Bool} {cmd : String → Except Modules.Err String}
    (h : addFile S L t deps f cmd = .ok L') : Older L L' := by
  unfold addFile at h
  simp only [bind, Except.bind, pure, Except.pure] at h
  split at h
  · cases h
  · split at h
    · cases h
    · rename_i r hr
      obtain ⟨d, t', ds⟩ := r
      cases h
      have hn := fileInit_next _ _ _ _ _ _ _ _ (liftE_ok hr)
      refine ⟨le_trans hn (Nat.le_succ _), fun o ho => ?_⟩
      have : o ≠ d.reg.next := Nat.ne_of_lt (lt_of_lt_of_le ho hn)
      simp [this]

theorem addSource_older {p : String} (h : addSource S L p = .ok L') : Older L L' := by
  unfold addSource at h
  simp only [bind, Except.bind, pure, Except.pure] at h
  split at h
  · cases h
  · rename_i m hm
    cases h
    refine ⟨?_, fun _ _ => ⟨rfl, rfl⟩⟩
    have hm := liftE_ok hm
    unfold sourceG at hm
    simp only at hm
    split at hm
    · cases hm; exact le_of_eq (next_has _ _).symm
    · split at hm
      · cases hm
      · rename_i d t ds h1
        cases hm
        have := fileInit_next _ _ _ _ _ _ _ _ h1
        rw [next_has] at this
        exact le_trans this (Nat.le_succ _)

theorem ensureSource_older {p : String} (h : ensureSource S L p = .ok L') : Older L L' := by
  unfold ensureSource at h
  dsimp only at h
  have h0 : Older L { L with m := (L.m.has S.env.canon p).1 } :=
    ⟨le_of_eq (next_has _ _).symm, fun _ _ => ⟨rfl, rfl⟩⟩
  split at h
  · cases h; exact h0
  · exact h0.trans (addSource_older h)

theorem foldlM_older {β : Type} {g : LReg → β → Except Modules.Err LReg} : ∀ (l : List β) (L L' : LReg),
    (∀ b ∈ l, ∀ L L', g L b = .ok L' → Older L L') → l.foldlM g L = .ok L' → Older L L'
  | [], L, L', _, h => by cases h; exact .refl
  | b :: l, L, L', hg, h => by
    simp only [List.foldlM_cons, bind, Except.bind] at h
    split at h
    · cases h
    · rename_i L1 h1
      exact (hg b (by simp) _ _ h1).trans (foldlM_older l L1 L' (fun b hb => hg b (by simp [hb])) h)

theorem linkObject_older {opts : CxxOpts} {adds : List String} {u : CUnit}
    (h : linkObject S opts adds L u = .ok L') : Older L L' := by
  obtain ⟨s, o, d⟩ := u
  unfold linkObject at h
  simp only [bind, Except.bind] at h
  split at h
  · cases h
  · rename_i L1 h1
    split at h
    · cases h
    · rename_i L2 h2
      split at h
      · cases h
      · rename_i L3 h3
        exact (((ensureSource_older h1).trans (foldlM_older _ _ _ (fun _ _ _ _ h => ensureSource_older h) h2)).trans
          (addFile_older h3)).trans (addFile_older h)

theorem addFileset_older {n : String} {ts : List String} (h : addFileset S L n ts = .ok L') : Older L L' := by
  unfold addFileset at h
  simp only [bind, Except.bind, pure, Except.pure] at h
  split at h
  · cases h
  · rename_i w hw
    cases h
    refine ⟨?_, fun _ _ => ⟨rfl, rfl⟩⟩
    have hw := liftE_ok hw
    unfold filesetG at hw
    simp only at hw
    split at hw
    · cases hw
    · rename_i d hd
      cases hw
      exact le_trans (addSources_next _ _ _ hd) (Nat.le_succ _)

theorem registerParts_older {M : Parts} {lh : String} {o1 o2 : CxxOpts}
    (h : registerParts S L lh M o1 o2 = .ok L') : Older L L' := by
  unfold registerParts at h
  simp only [bind, Except.bind] at h
  split at h
  · cases h
  · rename_i La ha
    split at h
    · cases h
    · rename_i Lb hb
      split at h
      · cases h
      · rename_i Lc hc
        split at h
        · cases h
        · rename_i Ld hd
          split at h
          · cases h
          · rename_i Le he
            have ha' : Older L La := by
              refine foldlM_older _ _ _ ?_ ha
              intro m _ _ _ h
              split at h
              · cases h
              · rename_i h0
                unfold addCopy at h
                simp only [bind, Except.bind] at h
                split at h
                · cases h
                · rename_i h01
                  exact ((addSource_older h0).trans (addSource_older h01)).trans (addFile_older h)
            refine ha'.trans ((addFileset_older hb).trans ((foldlM_older _ _ _ ?_ hc).trans
              ((foldlM_older _ _ _ ?_ hd).trans ((foldlM_older _ _ _ ?_ he).trans (foldlM_older _ _ _ ?_ h)))))
            · intro m _ _ _ h
              split at h
              · cases h
              · rename_i h0
                exact (addSource_older h0).trans (addFile_older h)
            · intro m _ _ _ h
              split at h
              · cases h
              · rename_i h0
                exact (addSource_older h0).trans (addFile_older h)
            · exact fun _ _ _ _ h => linkObject_older h
            · exact fun _ _ _ _ h => addSource_older h

end Licant.Cxx
