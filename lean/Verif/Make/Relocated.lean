/-
A project in another place is registered as the project here, with paths replaced: C152.
-/
import Verif.Make.Default
import Verif.Make.Moved

set_option autoImplicit false

namespace Licant.Make
open Licant.Py Licant.Core Relation

variable {σ : String → String} {G : String → Prop} {E E' : Env} {c c' : MReg}

/-! ### specification -/

/-- What is outside looks, at the new names, as it looked at the old names, for all names in `G`: `σ` gives the new name.
Directories are only looked at up to the first one that exists: those above may be different. -/
structure Renames (σ : String → String) (G : String → Prop) (E E' : Env) : Prop where
  inj : ∀ p q, G p → G q → σ p = σ q → p = q
  canon : ∀ p, G p → G (E.canon p) ∧ E'.canon (σ p) = σ (E.canon p)
  ex : ∀ p, G p → E'.ex (σ p) = E.ex p
  exDir : ∀ p, G p → E'.ex (parent (σ p)) = E.ex (parent p)
  dir : ∀ p, G p → E.ex (parent p) = false → G (parent p) ∧ parent (σ p) = σ (parent p)
  home : ∀ p, G p → G (E.home p) ∧ E'.home (σ p) = σ (E.home p)
  star : ∀ p, G p → ('*' ∈ (σ p).toList ↔ '*' ∈ p.toList)
  glob : ∀ p, G p → '*' ∈ p.toList → E'.glob (σ p) = (E.glob p).map σ ∧ ∀ q ∈ E.glob p, G q

/-- the same target with names replaced -/
def renObj (σ : String → String) (ob : Obj) : Obj :=
  { ob with tgt := σ ob.tgt, deps := ob.deps.map σ, weakdeps := ob.weakdeps.map σ }

/-- the registry `c'` is `c` with names replaced; all names are in `G` -/
structure Copied (σ : String → String) (G : String → Prop) (c c' : MReg) : Prop where
  targets : c'.reg.targets = c.reg.targets.map fun p => (σ p.1, p.2)
  next : c'.reg.next = c.reg.next
  obj : ∀ o < c.reg.next, c'.reg.obj o = renObj σ (c.reg.obj o)
  kind : ∀ o < c.reg.next, c'.kind o = c.kind o
  lt : ∀ n o, c.reg.targets.get n = some o → o < c.reg.next
  names : ∀ n ∈ c.reg.targets.keys, G n
  deps : ∀ o < c.reg.next, ∀ d ∈ (c.reg.obj o).deps, G d
  tgts : ∀ o < c.reg.next, G (c.reg.obj o).tgt
  blank : ∀ o, c.reg.next ≤ o → c.kind o = .other ∧ c'.kind o = .other

/-- a call with all names replaced -/
def CallD.ren (σ : String → String) : CallD → CallD
  | .source src => .source (σ src)
  | .makefile tgt deps => .makefile (σ tgt) (deps.map σ)
  | .copy tgt src adddeps => .copy (σ tgt) (σ src) (adddeps.map σ)
  | .fileset tgt targets deps => .fileset (σ tgt) (targets.map σ) (deps.map σ)
  | .target tgt deps upd act => .target (σ tgt) (deps.map σ) upd act
  | .makedir dir => .makedir (σ dir)

/-- the names in a call -/
def CallD.names : CallD → List String
  | .source src => [src]
  | .makefile tgt deps => tgt :: deps
  | .copy tgt src adddeps => tgt :: src :: adddeps
  | .fileset tgt targets deps => tgt :: (targets ++ deps)
  | .target tgt deps _ _ => tgt :: deps
  | .makedir dir => [dir]

/-- both fail in the same way, or both succeed, with results related by `R` -/
def SameE {α β ε : Type} (R : α → β → Prop) : Except ε α → Except ε β → Prop
  | .ok a, .ok b => R a b
  | .error e, .error e' => e = e'
  | _, _ => False

/-! ### proofs -/

theorem SameE.foldlM {α β ε : Type} {R : α → β → Prop} {f : α → String → Except ε α} {g : β → String → Except ε β}
    {l : List String} (hl : ∀ r ∈ l, G r)
    (step : ∀ a b r, G r → R a b → SameE R (f a r) (g b (σ r))) :
    ∀ a b, R a b → SameE R (l.foldlM f a) ((l.map σ).foldlM g b) := by
  induction l with
  | nil => intro a b h; exact h
  | cons r l ih =>
    intro a b h
    have h1 := step a b r (hl r (by simp)) h
    simp only [List.map_cons, List.foldlM_cons, bind, Except.bind]
    revert h1
    cases f a r with
    | error e => cases g b (σ r) with
      | error e' => exact id
      | ok b' => exact False.elim
    | ok a' => cases g b (σ r) with
      | error e' => exact False.elim
      | ok b' => exact fun h1 => ih (fun r' hr' => hl r' (by simp [hr'])) a' b' h1

theorem Copied.get (hR : Renames σ G E E') (h : Copied σ G c c') {n : String} (hn : G n) :
    c'.reg.targets.get (σ n) = c.reg.targets.get n := by
  rw [h.targets]
  have hk := h.names
  revert hk
  generalize c.reg.targets = t
  intro hk
  induction t with
  | nil => rfl
  | cons p t ih =>
    obtain ⟨k, v⟩ := p
    have h1 : G k := hk k (by simp [Dict.keys])
    have h2 := ih fun m hm => hk m (by simp only [Dict.keys, List.map_cons, List.mem_cons] at hm ⊢; exact Or.inr hm)
    simp only [List.map_cons, Dict.get]
    by_cases h3 : k = n
    · simp [h3]
    · rw [if_neg h3, if_neg fun h4 => h3 (hR.inj _ _ h1 hn h4)]
      exact h2

theorem set_map (hR : Renames σ G E E') {t : Dict String Nat} (hk : ∀ m ∈ t.keys, G m) {n : String} (hn : G n) (o : Nat) :
    (t.set n o).map (fun p => (σ p.1, p.2)) = Dict.set (t.map fun p => (σ p.1, p.2)) (σ n) o := by
  induction t with
  | nil => rfl
  | cons p t ih =>
    obtain ⟨k, v⟩ := p
    have h1 : G k := hk k (by simp [Dict.keys])
    have h2 := ih fun m hm => hk m (by simp only [Dict.keys, List.map_cons, List.mem_cons] at hm ⊢; exact Or.inr hm)
    simp only [List.map_cons, Dict.set]
    by_cases h3 : k = n
    · simp [h3]
    · rw [if_neg h3, if_neg fun h4 => h3 (hR.inj _ _ h1 hn h4), List.map_cons, h2]

theorem mem_keys_set {t : Dict String Nat} {n m : String} {o : Nat} (h : m ∈ (t.set n o).keys) : m = n ∨ m ∈ t.keys := by
  induction t with
  | nil => simpa [Dict.set, Dict.keys] using h
  | cons p t ih =>
    obtain ⟨k, v⟩ := p
    simp only [Dict.set] at h
    split at h
    · exact Or.inr (by simpa [Dict.keys] using h)
    · simp only [Dict.keys, List.map_cons, List.mem_cons] at h ⊢
      rcases h with h | h
      · exact Or.inr (Or.inl h)
      · rcases ih h with h | h
        · exact Or.inl h
        · exact Or.inr (Or.inr h)

theorem Copied.has (hR : Renames σ G E E') (h : Copied σ G c c') {n : String} (hn : G n) :
    Copied σ G (c.has E.canon n).1 (c'.has E'.canon (σ n)).1 ∧ (c'.has E'.canon (σ n)).2 = (c.has E.canon n).2 := by
  unfold MReg.has Core.has Dict.has
  rw [(hR.canon n hn).2, h.get hR hn, h.get hR (hR.canon n hn).1]
  simp only
  split
  · exact ⟨h, rfl⟩
  · split
    · rename_i o ho
      refine ⟨⟨?_, h.next, h.obj, h.kind, ?_, ?_, h.deps, h.tgts, h.blank⟩, rfl⟩
      · show Dict.set _ _ _ = _
        rw [h.targets]
        exact (set_map hR h.names hn o).symm
      · intro m o' hm
        simp only [Dict.get_set] at hm
        split at hm
        · cases hm; exact h.lt _ _ ho
        · exact h.lt _ _ hm
      · intro m hm
        rcases mem_keys_set hm with rfl | hm
        · exact hn
        · exact h.names _ hm
    · exact ⟨h, rfl⟩

theorem Copied.add (hR : Renames σ G E E') (h : Copied σ G c c') {ob : Obj} {k : Kind} (ht : G ob.tgt) (hd : ∀ d ∈ ob.deps, G d) :
    Copied σ G (c.add ob k) (c'.add (renObj σ ob) k) where
  targets := by
    show Dict.set _ _ _ = _
    rw [h.targets, h.next]
    exact (set_map hR h.names ht _).symm
  next := by show c'.reg.next + 1 = c.reg.next + 1; rw [h.next]
  obj := by
    intro o ho
    have ho : o < c.reg.next + 1 := ho
    show (if o = c'.reg.next then _ else _) = renObj σ (if o = c.reg.next then _ else _)
    rw [h.next]
    split
    · rfl
    · exact h.obj o (by omega)
  kind := by
    intro o ho
    have ho : o < c.reg.next + 1 := ho
    show (if o = c'.reg.next then _ else _) = (if o = c.reg.next then _ else _)
    rw [h.next]
    split
    · rfl
    · exact h.kind o (by omega)
  lt := by
    intro n o hn
    show o < c.reg.next + 1
    have hn : (Dict.set c.reg.targets ob.tgt c.reg.next).get n = some o := hn
    rw [Dict.get_set] at hn
    split at hn
    · cases hn; omega
    · have := h.lt n o hn; omega
  names := by
    intro n hn
    rcases mem_keys_set (show n ∈ (Dict.set c.reg.targets ob.tgt c.reg.next).keys from hn) with rfl | hn
    · exact ht
    · exact h.names _ hn
  deps := by
    intro o ho d hd'
    have ho : o < c.reg.next + 1 := ho
    have hd' : d ∈ (if o = c.reg.next then ob else c.reg.obj o).deps := hd'
    split at hd'
    · exact hd d hd'
    · exact h.deps o (by omega) d hd'
  tgts := by
    intro o ho
    have ho : o < c.reg.next + 1 := ho
    show G (if o = c.reg.next then ob else c.reg.obj o).tgt
    split
    · exact ht
    · exact h.tgts o (by omega)
  blank := by
    intro o ho
    have ho : c.reg.next + 1 ≤ o := ho
    show (if o = c.reg.next then _ else _) = _ ∧ (if o = c'.reg.next then _ else _) = _
    rw [h.next, if_neg (by omega), if_neg (by omega)]
    exact h.blank o (by omega)

theorem globs_ren (hR : Renames σ G E E') {l : List String} (hl : ∀ d ∈ l, G d) :
    globs E' (l.map σ) = (globs E l).map σ ∧ ∀ d ∈ globs E l, G d := by
  induction l with
  | nil => exact ⟨rfl, by intro d hd; cases hd⟩
  | cons a l ih =>
    obtain ⟨h1, h2⟩ := ih fun d hd => hl d (by simp [hd])
    have ha := hl a (by simp)
    have e : globs E (a :: l) = (if '*' ∈ a.toList then E.glob a else [a]) ++ globs E l := rfl
    have e' : globs E' ((a :: l).map σ) = (if '*' ∈ (σ a).toList then E'.glob (σ a) else [σ a]) ++ globs E' (l.map σ) := rfl
    rw [e, e', h1]
    simp only [hR.star a ha]
    split
    · rename_i hs
      obtain ⟨h3, h4⟩ := hR.glob a ha hs
      refine ⟨by rw [h3, List.map_append], fun d hd => ?_⟩
      rcases List.mem_append.1 hd with hd | hd
      · exact h4 d hd
      · exact h2 d hd
    · refine ⟨by simp, fun d hd => ?_⟩
      rcases List.mem_append.1 hd with hd | hd
      · rw [List.mem_singleton.1 hd]; exact ha
      · exact h2 d hd

/-- what the constructor of a file returns, in both places -/
def FileSame (σ : String → String) (G : String → Prop) (r r' : MReg × String × List String) : Prop :=
  Copied σ G r.1 r'.1 ∧ r'.2.1 = σ r.2.1 ∧ r'.2.2 = r.2.2.map σ ∧ G r.2.1 ∧ ∀ d ∈ r.2.2, G d

theorem FileSame.add (hR : Renames σ G E E') {r r' : MReg × String × List String} (h : FileSame σ G r r') (k : Kind) :
    Copied σ G (r.1.add (makeObj r.2.1 r.2.2) k) (r'.1.add (makeObj r'.2.1 r'.2.2) k) := by
  obtain ⟨h1, h2, h3, h4, h5⟩ := h
  rw [h2, h3]
  exact h1.add hR (ob := makeObj r.2.1 r.2.2) h4 h5

theorem fileInit_ren (hR : Renames σ G E E') : ∀ (fuel : Nat) (c c' : MReg) (tgt : String) (deps : List String) (b : Bool),
    Copied σ G c c' → G tgt → (∀ d ∈ deps, G d) →
    SameE (FileSame σ G) (fileInit E fuel c tgt deps b) (fileInit E' fuel c' (σ tgt) (deps.map σ) b) := by
  intro fuel
  induction fuel with
  | zero => intro c c' tgt deps b _ _ _; rfl
  | succ fuel ih =>
    intro c c' tgt deps b hc ht hd
    obtain ⟨g1, g2⟩ := hR.canon tgt ht
    unfold fileInit
    simp only [g2]
    generalize E.canon tgt = t at g1 g2
    rw [hR.exDir t g1]
    -- the directory
    have hdir : SameE (fun (x : MReg × List String) (x' : MReg × List String) =>
          Copied σ G x.1 x'.1 ∧ x'.2 = x.2.map σ ∧ ∀ d ∈ x.2, G d)
        (if (b && !E.ex (parent t)) = true then
          match fileInit E fuel c (parent t) [] (!E.ex (parent (parent t))) with
          | .error e => .error e
          | .ok (d, t', ds) => .ok (d.add (makeObj t' ds) .dir, deps ++ [parent t])
        else .ok (c, deps))
        (if (b && !E.ex (parent t)) = true then
          match fileInit E' fuel c' (parent (σ t)) [] (!E'.ex (parent (parent (σ t)))) with
          | .error e => .error e
          | .ok (d, t', ds) => .ok (d.add (makeObj t' ds) .dir, deps.map σ ++ [parent (σ t)])
        else .ok (c', deps.map σ)) := by
      split
      · rename_i hx
        have hx : E.ex (parent t) = false := by
          cases hb : E.ex (parent t)
          · rfl
          · rw [hb] at hx; simp at hx
        obtain ⟨d1, d2⟩ := hR.dir t g1 hx
        rw [d2, hR.exDir _ d1]
        have h1 := ih c c' (parent t) [] (!E.ex (parent (parent t))) hc d1 (by intro d hd; cases hd)
        rw [List.map_nil] at h1
        revert h1
        rcases fileInit E fuel c (parent t) [] (!E.ex (parent (parent t))) with e | r <;>
          rcases fileInit E' fuel c' (σ (parent t)) [] (!E.ex (parent (parent t))) with e' | r'
        · exact id
        · exact False.elim
        · exact False.elim
        · intro h1
          refine ⟨FileSame.add hR h1 .dir, by simp, fun d hd' => ?_⟩
          rcases List.mem_append.1 hd' with hd' | hd'
          · exact hd d hd'
          · rw [List.mem_singleton.1 hd']; exact d1
      · exact ⟨hc, rfl, hd⟩
    revert hdir
    generalize (if (b && !E.ex (parent t)) = true then
          match fileInit E fuel c (parent t) [] (!E.ex (parent (parent t))) with
          | .error e => .error e
          | .ok (d, t', ds) => .ok (d.add (makeObj t' ds) .dir, deps ++ [parent t])
        else .ok (c, deps) : Except Core.Err (MReg × List String)) = X
    generalize (if (b && !E.ex (parent t)) = true then
          match fileInit E' fuel c' (parent (σ t)) [] (!E'.ex (parent (parent (σ t)))) with
          | .error e => .error e
          | .ok (d, t', ds) => .ok (d.add (makeObj t' ds) .dir, deps.map σ ++ [parent (σ t)])
        else .ok (c', deps.map σ) : Except Core.Err (MReg × List String)) = X'
    rcases X with e | ⟨d, ds⟩ <;> rcases X' with e' | ⟨d', ds'⟩
    · exact id
    · exact False.elim
    · exact False.elim
    · rintro ⟨h1, h2, h3⟩
      simp only at h1 h2 h3
      subst h2
      obtain ⟨k1, k2⟩ := globs_ren hR h3
      simp only [k1]
      have h4 := SameE.foldlM (σ := σ) (G := G) (R := Copied σ G)
        (f := fun d r => if E.ex r then
            let h := d.has E.canon r
            if h.2 then .ok h.1
            else match fileInit E fuel h.1 r [] true with
              | .error e => .error e
              | .ok (d, t, ds) => .ok (d.add (makeObj t ds) .source)
          else .ok d)
        (g := fun d r => if E'.ex r then
            let h := d.has E'.canon r
            if h.2 then .ok h.1
            else match fileInit E' fuel h.1 r [] true with
              | .error e => .error e
              | .ok (d, t, ds) => .ok (d.add (makeObj t ds) .source)
          else .ok d) k2 (by
        intro a a' r hr ha
        simp only [hR.ex r hr]
        split
        · obtain ⟨m1, m2⟩ := ha.has hR hr
          rw [m2]
          split
          · exact m1
          · have h5 := ih _ _ r [] true m1 hr (by intro d hd; cases hd)
            rw [List.map_nil] at h5
            revert h5
            rcases fileInit E fuel (a.has E.canon r).1 r [] true with e | q <;>
              rcases fileInit E' fuel (a'.has E'.canon (σ r)).1 (σ r) [] true with e' | q'
            · exact id
            · exact False.elim
            · exact False.elim
            · exact fun h5 => FileSame.add hR h5 .source
        · exact ha) d d' h1
      revert h4
      generalize (List.foldlM _ d (globs E ds) : Except Core.Err MReg) = Y
      generalize (List.foldlM _ d' ((globs E ds).map σ) : Except Core.Err MReg) = Y'
      rcases Y with e | y <;> rcases Y' with e' | y'
      · exact id
      · exact False.elim
      · exact False.elim
      · exact fun h4 => ⟨h4, rfl, rfl, g1, k2⟩

theorem addSources_ren (hR : Renames σ G E E') {fuel : Nat} (hc : Copied σ G c c') {l : List String} (hl : ∀ d ∈ l, G d) :
    SameE (Copied σ G) (addSources E fuel c l) (addSources E' fuel c' (l.map σ)) := by
  unfold addSources
  refine SameE.foldlM (σ := σ) (G := G) (R := Copied σ G) hl ?_ c c' hc
  intro a a' r hr ha
  simp only [hR.ex r hr]
  split
  · obtain ⟨m1, m2⟩ := ha.has hR hr
    rw [m2]
    split
    · exact m1
    · have h5 := fileInit_ren hR fuel _ _ r [] true m1 hr (by intro d hd; cases hd)
      rw [List.map_nil] at h5
      revert h5
      rcases fileInit E fuel (a.has E.canon r).1 r [] true with e | q <;>
        rcases fileInit E' fuel (a'.has E'.canon (σ r)).1 (σ r) [] true with e' | q'
      · exact id
      · exact False.elim
      · exact False.elim
      · exact fun h5 => FileSame.add hR h5 .source
  · exact ha

theorem sourceG_ren (hR : Renames σ G E E') {lim : Nat} (hc : Copied σ G c c') {p : String} (hp : G p) :
    SameE (Copied σ G) (sourceG E lim c p []) (sourceG E' lim c' (σ p) []) := by
  unfold sourceG
  obtain ⟨m1, m2⟩ := hc.has hR hp
  simp only [m2]
  split
  · exact m1
  · have h5 := fileInit_ren hR lim _ _ p [] true m1 hp (by intro d hd; cases hd)
    rw [List.map_nil] at h5
    revert h5
    rcases fileInit E lim (c.has E.canon p).1 p [] true with e | q <;>
      rcases fileInit E' lim (c'.has E'.canon (σ p)).1 (σ p) [] true with e' | q'
    · exact id
    · exact False.elim
    · exact False.elim
    · exact fun h5 => FileSame.add hR h5 .source

theorem makefileG_ren (hR : Renames σ G E E') {lim : Nat} {w w' : World} (hc : Copied σ G w.dflt w'.dflt) {t : String}
    {deps : List String} (ht : G t) (hd : ∀ d ∈ deps, G d) :
    SameE (fun (v v' : World) => Copied σ G v.dflt v'.dflt) (makefileG E lim w t deps false)
      (makefileG E' lim w' (σ t) (deps.map σ) false) := by
  unfold makefileG
  have h5 := fileInit_ren hR lim _ _ t deps true hc ht hd
  revert h5
  rcases fileInit E lim w.dflt t deps true with e | q <;>
    rcases fileInit E' lim w'.dflt (σ t) (deps.map σ) true with e' | q'
  · exact id
  · exact False.elim
  · exact False.elim
  · exact fun h5 => FileSame.add hR h5 .file

/-- One call in the new place, with all names replaced, does what the call does in the old place. -/
theorem callD_ren (hR : Renames σ G E E') {lim : Nat} {w w' : World} (hc : Copied σ G w.dflt w'.dflt) {cl : CallD}
    (hG : ∀ n ∈ cl.names, G n) :
    SameE (fun (v v' : World) => Copied σ G v.dflt v'.dflt) (callD E lim w cl) (callD E' lim w' (cl.ren σ)) := by
  cases cl with
  | source src =>
    have h := sourceG_ren hR (lim := lim) hc (hG src (by simp [CallD.names]))
    simp only [callD, CallD.ren]
    revert h
    rcases sourceG E lim w.dflt src [] with e | q <;> rcases sourceG E' lim w'.dflt (σ src) [] with e' | q'
    · exact id
    · exact False.elim
    · exact False.elim
    · exact id
  | makefile t deps =>
    exact makefileG_ren hR hc (hG t (by simp [CallD.names])) fun d hd => hG d (by simp [CallD.names, hd])
  | copy t src adddeps =>
    simp only [callD, CallD.ren, copyG]
    obtain ⟨s1, s2⟩ := hR.home src (hG src (by simp [CallD.names]))
    obtain ⟨t1, t2⟩ := hR.home t (hG t (by simp [CallD.names]))
    rw [s2, t2]
    have h := sourceG_ren hR (lim := lim) hc s1
    revert h
    rcases sourceG E lim w.dflt (E.home src) [] with e | q <;> rcases sourceG E' lim w'.dflt (σ (E.home src)) [] with e' | q'
    · exact id
    · exact False.elim
    · exact False.elim
    · intro h
      have := makefileG_ren hR (lim := lim) (w := { w with dflt := q }) (w' := { w' with dflt := q' }) h t1
        (deps := E.home src :: adddeps) (by
          intro d hd
          rcases List.mem_cons.1 hd with rfl | hd
          · exact s1
          · exact hG d (by simp [CallD.names, hd]))
      exact this
  | fileset t targets deps =>
    have ht := hG t (by simp [CallD.names])
    obtain ⟨k1, k2⟩ := globs_ren hR (l := deps ++ targets) fun d hd => hG d (by
      simp only [CallD.names, List.mem_cons, List.mem_append] at hd ⊢; tauto)
    simp only [callD, CallD.ren, filesetG, ← List.map_append, k1]
    have h := addSources_ren hR (fuel := lim) hc k2
    revert h
    rcases addSources E lim w.dflt (globs E (deps ++ targets)) with e | q <;>
      rcases addSources E' lim w'.dflt ((globs E (deps ++ targets)).map σ) with e' | q'
    · exact id
    · exact False.elim
    · exact False.elim
    · exact fun h => h.add hR (ob := makeObj t (globs E (deps ++ targets))) ht k2
  | target t deps upd act =>
    have ht := hG t (by simp [CallD.names])
    obtain ⟨k1, k2⟩ := globs_ren hR (l := deps) fun d hd => hG d (by simp [CallD.names, hd])
    simp only [callD, CallD.ren, targetG, k1]
    have h := addSources_ren hR (fuel := lim) hc k2
    revert h
    rcases addSources E lim w.dflt (globs E deps) with e | q <;>
      rcases addSources E' lim w'.dflt ((globs E deps).map σ) with e' | q'
    · exact id
    · exact False.elim
    · exact False.elim
    · exact fun h => h.add hR (ob := ⟨t, globs E deps, upd, [], act⟩) ht k2
  | makedir dir =>
    have hd := hG dir (by simp [CallD.names])
    simp only [callD, CallD.ren, dirkeepG, hR.exDir dir hd]
    have h5 := fileInit_ren hR lim _ _ dir [] (!E.ex (parent dir)) hc hd (by intro d hd; cases hd)
    rw [List.map_nil] at h5
    revert h5
    rcases fileInit E lim w.dflt dir [] (!E.ex (parent dir)) with e | q <;>
      rcases fileInit E' lim w'.dflt (σ dir) [] (!E.ex (parent dir)) with e' | q'
    · exact id
    · exact False.elim
    · exact False.elim
    · exact fun h5 => FileSame.add hR h5 .dir

/-- several calls -/
theorem callsD_ren (hR : Renames σ G E E') {lim : Nat} {cs : List CallD} (hG : ∀ cl ∈ cs, ∀ n ∈ cl.names, G n) :
    ∀ {w w' : World}, Copied σ G w.dflt w'.dflt →
    SameE (fun (v v' : World) => Copied σ G v.dflt v'.dflt) (cs.foldlM (callD E lim) w)
      ((cs.map (CallD.ren σ)).foldlM (callD E' lim) w') := by
  induction cs with
  | nil => intro w w' h; exact h
  | cons cl cs ih =>
    intro w w' h
    have h1 := callD_ren hR (lim := lim) h (hG cl (by simp))
    simp only [List.map_cons, List.foldlM_cons, bind, Except.bind]
    revert h1
    rcases callD E lim w cl with e | v <;> rcases callD E' lim w' (cl.ren σ) with e' | v'
    · exact id
    · exact False.elim
    · exact False.elim
    · exact fun h1 => ih (fun cl' h' => hG cl' (by simp [h'])) h1

/-- what a name leads to -/
theorem Copied.resolves (hR : Renames σ G E E') (h : Copied σ G c c') {n : String} (hn : G n) {o : Nat} :
    Resolves E'.canon c'.reg (σ n) o ↔ Resolves E.canon c.reg n o := by
  unfold Resolves
  rw [(hR.canon n hn).2, h.get hR hn, h.get hR (hR.canon n hn).1]

theorem copied_licantReg (h : ∀ n ∈ licantNames, G n ∧ σ n = n) : Copied σ G licantReg licantReg where
  targets := by
    have e : licantReg.reg.targets.map (fun p => (σ p.1, p.2)) = licantReg.reg.targets.map id := by
      refine List.map_congr_left fun p hp => ?_
      have : p.1 ∈ licantNames := (by decide +kernel : ∀ q ∈ licantReg.reg.targets, q.1 ∈ licantNames) p hp
      simp [(h _ this).2]
    rw [e, List.map_id]
  next := rfl
  obj := by
    intro o ho
    have hb : ∀ i < 4, (licantReg.reg.obj i).tgt ∈ licantNames ∧ (licantReg.reg.obj i).deps = [] ∧
      (licantReg.reg.obj i).weakdeps = [] := by decide +kernel
    obtain ⟨h1, h2, h3⟩ := hb o ho
    unfold renObj
    rw [(h _ h1).2, h2, h3, List.map_nil]
    generalize licantReg.reg.obj o = ob at h2 h3
    obtain ⟨a, b, d, e, f⟩ := ob
    simp only at h2 h3
    subst h2 h3
    rfl
  kind := fun _ _ => rfl
  lt := fun n o hn => (licantReg_get hn).1
  names := fun n hn => (h n ((by decide +kernel : ∀ q ∈ licantReg.reg.targets.keys, q ∈ licantNames) n hn)).1
  deps := by intro o _ d hd; rw [licantReg_deps] at hd; cases hd
  tgts := fun o ho => (h _ ((by decide +kernel : ∀ i < 4, (licantReg.reg.obj i).tgt ∈ licantNames) o ho)).1
  blank := fun o _ => ⟨licantReg_kind o, licantReg_kind o⟩

theorem Copied.moved {α : Type} (hR : Renames σ G E E') (h : Copied σ G c c') {P P' : Proj α}
    (hP : P.reg = c.reg) (hk : P.kind = c.kind) (hP' : P'.reg = c'.reg) (hk' : P'.kind = c'.kind)
    (hb : ∀ o < c.reg.next, P'.force o = P.force o ∧ P'.upd o = P.upd o ∧ ∀ f, P'.cmd o f = P.cmd o fun p => f (σ p))
    {root : String} (hroot : G root) : Moved σ E.canon E'.canon P P' root := by
  intro n hn
  have hG : G n := by
    induction hn with
    | root => exact hroot
    | dep _ hr hd ih =>
      rw [hP] at hr hd
      refine h.deps _ ?_ _ hd
      rcases hr with hr | ⟨_, hr⟩
      · exact h.lt _ _ hr
      · exact h.lt _ _ hr
  refine ⟨fun o ho => ⟨o, ?_, ?_⟩, fun o ho => ⟨o, ?_⟩⟩
  · rw [hP', h.resolves hR hG, ← hP]; exact ho
  · rw [hP] at ho
    have hlt : o < c.reg.next := by
      rcases ho with hr | ⟨_, hr⟩
      · exact h.lt _ _ hr
      · exact h.lt _ _ hr
    obtain ⟨b1, b2, b3⟩ := hb o hlt
    refine ⟨?_, ?_, ?_, b1, b2, b3⟩
    · rw [Proj.path, Proj.path, hP', hP, h.obj o hlt]; rfl
    · rw [hP', hP, h.obj o hlt]; rfl
    · rw [hk', hk, h.kind o hlt]
  · rw [hP', h.resolves hR hG, ← hP] at ho; exact ho

/-- **C152**, projects of files: the calls of a build script here, and the same calls in another place, with names replaced.  The second fail
if and only if the first do; and if they succeed, everything is described there as it is here, with names replaced (`Moved`, as in
`C152_partial`), if the commands make of the files there what they make of those here. -/
theorem C152_described (hR : Renames σ G E E') (hl : ∀ n ∈ licantNames, G n ∧ σ n = n) {lim : Nat} {cs : List CallD}
    (hG : ∀ cl ∈ cs, ∀ n ∈ cl.names, G n) {own own' : MReg} :
    (∀ e, cs.foldlM (callD E lim) ⟨licantReg, own⟩ = .error e ↔
      (cs.map (CallD.ren σ)).foldlM (callD E' lim) ⟨licantReg, own'⟩ = .error e) ∧
    ∀ w w', cs.foldlM (callD E lim) ⟨licantReg, own⟩ = .ok w →
      (cs.map (CallD.ren σ)).foldlM (callD E' lim) ⟨licantReg, own'⟩ = .ok w' →
      w'.dflt.reg.next = w.dflt.reg.next ∧
      ∀ {α : Type} (P P' : Proj α), P.reg = w.dflt.reg → P.kind = w.dflt.kind → P'.reg = w'.dflt.reg → P'.kind = w'.dflt.kind →
        (∀ o < w.dflt.reg.next, P'.force o = P.force o ∧ P'.upd o = P.upd o ∧ ∀ f, P'.cmd o f = P.cmd o fun p => f (σ p)) →
        ∀ root, G root → Moved σ E.canon E'.canon P P' root := by
  have h := callsD_ren hR (lim := lim) hG (w := ⟨licantReg, own⟩) (w' := ⟨licantReg, own'⟩) (copied_licantReg hl)
  revert h
  generalize cs.foldlM (callD E lim) ⟨licantReg, own⟩ = X
  generalize (cs.map (CallD.ren σ)).foldlM (callD E' lim) ⟨licantReg, own'⟩ = X'
  rcases X with e | v <;> rcases X' with e' | v'
  · rintro rfl
    exact ⟨fun _ => Iff.rfl, by rintro w w' h; cases h⟩
  · exact False.elim
  · exact False.elim
  · intro h
    refine ⟨fun e => ⟨(by rintro ⟨⟩), (by rintro ⟨⟩)⟩, ?_⟩
    rintro w w' ⟨⟩ ⟨⟩
    exact ⟨h.next, fun P P' a1 a2 a3 a4 a5 root hroot => h.moved hR a1 a2 a3 a4 a5 hroot⟩

/-! ### A project in `/s`, and in `/q/t` -/

/-- `os.path.realpath` etc. in the working directory `d`, where `fs` exist; no symbolic links, patterns or `~` -/
def cwdEnv (d : String) (fs : List String) : Env where
  canon p := if p.toList.head? = some '/' then p else if p = "." then d else d ++ "/" ++ p
  ex p := decide ((if p.toList.head? = some '/' then p else if p = "." then d else d ++ "/" ++ p) ∈ fs)
  home p := p
  glob _ := []

/-- `/s` becomes `/q/t` -/
def moveS (p : String) : String :=
  if p = "/s" ∨ p.toList.take 3 = "/s/".toList then String.ofList ("/q/t".toList ++ p.toList.drop 2) else p

/-- the names of the project: those that are given, their directories, and the canonical paths -/
def moveNames : List String :=
  let rel := ["a.c", "h.h", "b/x", "b", "all"] ++ licantNames
  rel ++ rel.map (fun p => "/s/" ++ p) ++ ["/s"]

def moveEnv : Env := cwdEnv "/s" ["/", "/s", "/s/a.c", "/s/h.h"]
def moveEnv' : Env := cwdEnv "/q/t" ["/", "/q", "/q/t", "/q/t/a.c", "/q/t/h.h"]

theorem moveEnv_renames : Renames moveS (· ∈ moveNames) moveEnv moveEnv' where
  inj := fun p q hp hq => (by decide +kernel : ∀ p ∈ moveNames, ∀ q ∈ moveNames, moveS p = moveS q → p = q) p hp q hq
  canon := by decide +kernel
  ex := by decide +kernel
  exDir := by decide +kernel
  dir := by decide +kernel
  home := fun p h => ⟨h, rfl⟩
  star := by decide +kernel
  glob := by decide +kernel

def moveCalls : List CallD :=
  [.source "a.c", .makefile "b/x" ["a.c", "h.h"], .fileset "all" ["b/x"] []]

/-- the hypotheses of `C152_described` hold, and both sequences of calls succeed -/
example : (∀ n ∈ licantNames, n ∈ moveNames ∧ moveS n = n) ∧ (∀ cl ∈ moveCalls, ∀ n ∈ cl.names, n ∈ moveNames) ∧
    moveCalls.map (CallD.ren moveS) = moveCalls ∧
    (∃ w, moveCalls.foldlM (callD moveEnv 10) ⟨licantReg, noReg⟩ = .ok w ∧
      w.dflt.reg.targets.get "/s/b/x" ≠ none ∧ w.dflt.reg.targets.get "/s/b" ≠ none) ∧
    ∃ w, moveCalls.foldlM (callD moveEnv' 10) ⟨licantReg, noReg⟩ = .ok w ∧
      w.dflt.reg.targets.get "/q/t/b/x" ≠ none ∧ w.dflt.reg.targets.get "/q/t/b" ≠ none := by
  refine ⟨by decide +kernel, by decide +kernel, ?_, ⟨_, rfl, by decide +kernel, by decide +kernel⟩, ⟨_, rfl, by decide +kernel, by decide +kernel⟩⟩
  have h1 : moveS "a.c" = "a.c" := by decide +kernel
  have h2 : moveS "b/x" = "b/x" := by decide +kernel
  have h3 : moveS "h.h" = "h.h" := by decide +kernel
  have h4 : moveS "all" = "all" := by decide +kernel
  simp [moveCalls, CallD.ren, h1, h2, h3, h4]

end Licant.Make
