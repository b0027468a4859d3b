/-
C143: the order in which a project is described.
-/
import Verif.Make.Default
import Verif.Make.Props
import Verif.Py.Normal

set_option autoImplicit false

namespace Licant.Make
open Licant.Py Licant.Core Relation

variable {E : Env} {lim : Nat} {α : Type}

/-! ### specification -/

/-- core.py:75-84: what the name `n` stands for: the attributes and the class of the target, by its exact name first and by
its canonical path second -/
def MReg.means (c : MReg) (canon : String → String) (n : String) : Option (Obj × Kind) :=
  match c.reg.targets.get n with
  | some o => some (c.reg.obj o, c.kind o)
  | none => (c.reg.targets.get (canon n)).map fun o => (c.reg.obj o, c.kind o)

/-- the target that a call declares: its name, attributes and class -/
def CallD.decl (E : Env) : CallD → Option (String × Obj × Kind)
  | .source _ => none
  | .makefile tgt deps => some (E.canon tgt, madeFrom E tgt deps, .file)
  | .copy tgt src adddeps => some (E.canon (E.home tgt), madeFrom E (E.home tgt) (E.home src :: adddeps), .file)
  | .fileset tgt targets deps => some (tgt, makeObj tgt (globs E (deps ++ targets)), .fileset)
  | .target tgt deps upd act => some (tgt, ⟨tgt, globs E deps, upd, [], act⟩, .other)
  | .makedir _ => none

/-- the paths that a call takes for sources, unless they are declared: its existing dependencies, and what is given to
`source` and `copy` -/
def CallD.sources (E : Env) : CallD → List String
  | .source src => [src]
  | .makefile _ deps => (globs E deps).filter E.ex
  | .copy _ src adddeps => E.home src :: (globs E (E.home src :: adddeps)).filter E.ex
  | .fileset _ targets deps => (globs E (deps ++ targets)).filter E.ex
  | .target _ deps _ _ => (globs E deps).filter E.ex
  | .makedir _ => []

/-- the paths whose missing directories have to be made -/
def CallD.inside (E : Env) : CallD → List String
  | .source src => [src]
  | .makefile tgt _ => [tgt]
  | .copy tgt src _ => [E.home src, E.home tgt]
  | .fileset _ _ _ => []
  | .target _ _ _ _ => []
  | .makedir dir => [dir]

/-- the directories that a call declares -/
def CallD.Dir (E : Env) (cl : CallD) (q : String) : Prop :=
  (∃ p ∈ cl.inside E, MissingDir E (E.canon p) q) ∨ ∃ dir, cl = .makedir dir ∧ q = E.canon dir

/-- A description whose order does not matter. -/
structure Orderly (E : Env) (c : MReg) (calls : List CallD) : Prop where
  /-- every name is declared once -/
  once : calls.Pairwise fun cl cl' => ∀ n v n' v', cl.decl E = some (n, v) → cl'.decl E = some (n', v') → n ≠ n'
  /-- what is declared or taken for a source is not also a missing directory -/
  nodir : ∀ cl ∈ calls, ∀ cl' ∈ calls, ∀ q, cl'.Dir E q →
    (∀ n v, cl.decl E = some (n, v) → n ≠ q) ∧ ∀ r ∈ cl.sources E, E.canon r ≠ q
  /-- a dependency that is made by another call is spelled like there -/
  spelled : ∀ cl ∈ calls, ∀ cl' ∈ calls, ∀ r ∈ cl.sources E, ∀ n v, cl'.decl E = some (n, v) → n = r ∨ n = E.canon r →
    E.canon r = r ∧ (v.2 = .file ∨ E.ex (parent r) = true)
  /-- nothing of this was registered before -/
  new : ∀ cl ∈ calls, (∀ n v, cl.decl E = some (n, v) → c.reg.targets.get n = none) ∧
    (∀ r ∈ cl.sources E, c.reg.targets.get r = none ∧ c.reg.targets.get (E.canon r) = none) ∧
    ∀ q, cl.Dir E q → c.reg.targets.get q = none
  /-- there are no patterns in the names of files and directories -/
  nostar : ∀ cl ∈ calls, ∀ p ∈ cl.inside E, NoStar E p
  /-- `makedir` -/
  makedir : ∀ dir, .makedir dir ∈ calls → E.ex (parent dir) = true → E.ex (parent (E.canon dir)) = true

/-! ### proofs -/

/-- what the exact name `n` stands for -/
def val (c : MReg) (n : String) : Option (Obj × Kind) := (c.reg.targets.get n).map fun o => (c.reg.obj o, c.kind o)

theorem means_val (c : MReg) (canon : String → String) (n : String) :
    c.means canon n = match val c n with
      | some v => some v
      | none => val c (canon n) := by
  unfold MReg.means val
  cases c.reg.targets.get n <;> rfl

/-- names that occur in a description -/
structure Ctx (E : Env) where
  c0 : MReg
  Dv : String → Obj × Kind → Prop
  Rv : String → Prop
  Tv : String → Prop
  fn : ∀ n v v', Dv n v → Dv n v' → v = v'
  dt : ∀ q v, Dv q v → ¬ Tv q
  st : ∀ r, Rv r → ¬ Tv (E.canon r)
  sp : ∀ r n v, Rv r → Dv n v → n = r ∨ n = E.canon r → E.canon r = r ∧ (v.2 = .file ∨ E.ex (parent r) = true)
  nd : ∀ n v, Dv n v → c0.reg.targets.get n = none
  nr : ∀ r, Rv r → c0.reg.targets.get r = none ∧ c0.reg.targets.get (E.canon r) = none
  nt : ∀ q, Tv q → c0.reg.targets.get q = none
  tc : ∀ q, Tv q → E.canon q = q
  dn : ∀ n v, Dv n v → v.1.tgt = n
  /-- more is asked of the registry -/
  whole : Prop
  cons : whole → Consistent c0.reg

/-- what is asked of the registry for builds; `T` are the directories -/
structure K (E : Env) (T : String → Prop) (c : MReg) : Prop where
  nodup : c.reg.targets.keys.Nodup
  cons : Consistent c.reg
  blank : ∀ o, c.reg.next ≤ o → c.kind o = .other
  obs : ∀ o, c.kind o = .source ∨ c.kind o = .dir → ∃ q, c.reg.obj o = plain E q ∧ E.canon q = q ∧ ∀ p, MissingDir E q p → T p
  regd : ∀ o, c.kind o = .file ∨ c.kind o = .fileset → ∃ n, val c n = some (c.reg.obj o, c.kind o)

/-- the registry after a part of the description: `D` is declared, `S` are sources, `T` directories -/
structure J (G : Ctx E) (D : String → Obj × Kind → Prop) (S T : String → Prop) (c : MReg) : Prop where
  lt : ∀ n o, c.reg.targets.get n = some o → o < c.reg.next
  subD : ∀ n v, D n v → G.Dv n v
  subS : ∀ q, S q → ∃ r, G.Rv r ∧ q = E.canon r
  subT : ∀ q, T q → G.Tv q
  dec : ∀ n v, D n v → val c n = some v
  src : ∀ q, (∀ v, ¬ D q v) → S q → val c q = some (plain E q, .source)
  dir : ∀ q, T q → val c q = some (plain E q, .dir)
  rest : ∀ n, (∀ v, ¬ D n v) → ¬ S n → ¬ T n → val c n = val G.c0 n ∨
    (G.Rv n ∧ E.canon n ≠ n ∧ S (E.canon n) ∧ val c n = some (plain E (E.canon n), .source))
  above : ∀ q p, S q ∨ (∃ ob, D q (ob, .file)) → MissingDir E q p → T p
  more : G.whole → K E T c

variable {G : Ctx E} {D : String → Obj × Kind → Prop} {S T : String → Prop} {c c' : MReg}

theorem J.congr (h : J G D S T c) {D' : String → Obj × Kind → Prop} {S' T' : String → Prop} (hD : ∀ n v, D n v ↔ D' n v)
    (hS : ∀ q, S q ↔ S' q) (hT : ∀ q, T q ↔ T' q) : J G D' S' T' c := by
  have e1 : D = D' := by funext n v; exact propext (hD n v)
  have e2 : S = S' := by funext q; exact propext (hS q)
  have e3 : T = T' := by funext q; exact propext (hT q)
  subst e1 e2 e3
  exact h

theorem val_add (hlt : ∀ n o, c.reg.targets.get n = some o → o < c.reg.next) (ob : Obj) (k : Kind) (n : String) :
    val (c.add ob k) n = if n = ob.tgt then some (ob, k) else val c n := by
  unfold val
  simp only [MReg.add, Core.add]
  by_cases he : n = ob.tgt
  · subst he; simp
  · rw [Dict.get_set_ne _ _ (Ne.symm he), if_neg he]
    cases hg : c.reg.targets.get n with
    | none => rfl
    | some o =>
      have : o ≠ c.reg.next := by have := hlt n o hg; omega
      simp [this]

theorem lt_add (hlt : ∀ n o, c.reg.targets.get n = some o → o < c.reg.next) (ob : Obj) (k : Kind) :
    ∀ n o, (c.add ob k).reg.targets.get n = some o → o < (c.add ob k).reg.next := by
  intro n o h
  simp only [MReg.add, Core.add] at h ⊢
  rw [Dict.get_set] at h
  split at h
  · cases h; omega
  · have := hlt n o h; omega

theorem val_none {n : String} : val c n = none ↔ c.reg.targets.get n = none := by
  unfold val
  cases c.reg.targets.get n <;> simp

/-- an existing parent directory: nothing is missing -/
theorem no_missingDir (hE : E.Sane) {t q : String} (hx : E.ex (parent t) = true) : ¬ MissingDir E t q := by
  rintro ⟨i, hi, -⟩
  have := missing_anc hE hi 0 (by omega)
  rw [show anc t 0 = parent t from rfl, hx] at this
  cases this

theorem K.mono {T' : String → Prop} (h : K E T c) (hT : ∀ q, T q → T' q) : K E T' c :=
  ⟨h.nodup, h.cons, h.blank, fun o ho => (h.obs o ho).imp fun _ h => ⟨h.1, h.2.1, fun p hp => hT p (h.2.2 p hp)⟩, h.regd⟩

theorem K.add (hlt : ∀ n o, c.reg.targets.get n = some o → o < c.reg.next) {T' : String → Prop} (h : K E T c)
    (hT : ∀ q, T q → T' q) {ob : Obj} {k : Kind}
    (hfree : ∀ m v, val c m = some v → v.1.tgt = ob.tgt → m = ob.tgt)
    (hob : k = .source ∨ k = .dir → ∃ q, ob = plain E q ∧ E.canon q = q ∧ ∀ p, MissingDir E q p → T' p)
    (hocc : ∀ v, val c ob.tgt = some v → v.2 = .file ∨ v.2 = .fileset → v = (ob, k)) : K E T' (c.add ob k) := by
  have hv := val_add hlt ob k
  have hobj : ∀ o, (c.add ob k).reg.obj o = if o = c.reg.next then ob else c.reg.obj o := fun _ => rfl
  have hkind : ∀ o, (c.add ob k).kind o = if o = c.reg.next then k else c.kind o := fun _ => rfl
  refine ⟨Dict.nodup_keys_set h.nodup _ _, ?_, ?_, ?_, ?_⟩
  · intro n o hn
    rw [hobj]
    have hn' : (c.reg.targets.set ob.tgt c.reg.next).get n = some o := hn
    show (c.reg.targets.set ob.tgt c.reg.next).get _ = some o
    rw [Dict.get_set] at hn'
    split at hn'
    · cases hn'
      rw [if_pos rfl]; exact Dict.get_set_self _ _ _
    · rename_i hne
      have ho := hlt n o hn'
      rw [if_neg (by omega)]
      rw [Dict.get_set_ne]
      · exact h.cons n o hn'
      · intro e
        exact hne (hfree n (c.reg.obj o, c.kind o) (by unfold val; rw [hn']; rfl) e.symm).symm
  · intro o ho
    have ho : c.reg.next + 1 ≤ o := ho
    rw [hkind, if_neg (by omega)]
    exact h.blank o (by omega)
  · intro o ho
    rw [hkind] at ho
    rw [hobj]
    split at ho
    · rename_i e; rw [if_pos e]; exact hob ho
    · rename_i e
      rw [if_neg e]
      exact (h.mono hT).obs o ho
  · intro o ho
    rw [hkind] at ho ⊢
    rw [hobj]
    split at ho
    · rename_i e
      exact ⟨ob.tgt, by rw [hv, if_pos rfl, if_pos e, if_pos e]⟩
    · rename_i e
      rw [if_neg e]
      obtain ⟨n, hn⟩ := h.regd o ho
      refine ⟨n, ?_⟩
      rw [hv]
      split
      · rename_i e'
        subst e'
        rw [hocc _ hn ho]
      · exact hn

/-- which names lead to targets with the name `q` -/
theorem J.free (h : J G D S T c) (hw : G.whole) {q : String} (hq : G.c0.reg.targets.get q = none)
    (hal : ∀ m, G.Rv m → E.canon m ≠ m → S (E.canon m) → E.canon m ≠ q) :
    ∀ m v, val c m = some v → v.1.tgt = q → m = q := by
  intro m v hv he
  by_cases hD : ∃ v, D m v
  · obtain ⟨v', hD⟩ := hD
    rw [h.dec m v' hD] at hv
    cases hv
    rw [← he, G.dn _ _ (h.subD _ _ hD)]
  · simp only [not_exists] at hD
    by_cases hS : S m
    · rw [h.src m hD hS] at hv
      cases hv; exact he
    · by_cases hT : T m
      · rw [h.dir m hT] at hv
        cases hv; exact he
      · rcases h.rest m hD hS hT with h1 | ⟨h1, h2, h3, h4⟩
        · exfalso
          rw [h1] at hv
          unfold val at hv
          rw [Option.map_eq_some_iff] at hv
          obtain ⟨o, ho, rfl⟩ := hv
          have := G.cons hw m o ho
          rw [show (G.c0.reg.obj o).tgt = q from he, hq] at this
          cases this
        · rw [h4] at hv
          cases hv
          exact absurd he (hal m h1 h2 h3)

/-- a directory is added -/
theorem J.addDir (h : J G D S T c) {q : String} (hq : G.Tv q) (hm : ∀ p, MissingDir E q p → T p) :
    J G D S (fun p => T p ∨ p = q) (c.add (plain E q) .dir) := by
  have hv := val_add h.lt (plain E q) .dir
  have ht : (plain E q).tgt = q := rfl
  rw [ht] at hv
  have hS : ∀ p, S p → p ≠ q := by
    rintro p hp rfl
    obtain ⟨r, hr, rfl⟩ := h.subS p hp
    exact G.st r hr hq
  have hD : ∀ p v, D p v → p ≠ q := by
    rintro p v hp rfl
    exact G.dt _ v (h.subD _ _ hp) hq
  refine ⟨lt_add h.lt _ _, h.subD, h.subS, ?_, ?_, ?_, ?_, ?_, ?_, ?_⟩
  rotate_left 6
  · intro hw
    refine (h.more hw).add h.lt (fun _ => Or.inl) ?_ (fun _ => ⟨q, rfl, G.tc q hq, fun p hp => Or.inl (hm p hp)⟩) ?_
    · rw [ht]
      exact h.free hw (G.nt q hq) fun m _ _ hs => hS _ hs
    · intro v hv' hk
      exfalso
      rw [ht] at hv'
      by_cases hT : T q
      · rw [h.dir q hT] at hv'; cases hv'; rcases hk with hk | hk <;> cases hk
      · rcases h.rest q (fun v hv => hD q v hv rfl) (fun hs => hS q hs rfl) hT with h1 | ⟨_, h1, _⟩
        · rw [h1, val_none.2 (G.nt q hq)] at hv'; cases hv'
        · exact h1 (G.tc q hq)
  · rintro p (hp | rfl)
    · exact h.subT p hp
    · exact hq
  · intro n v hn
    rw [hv, if_neg (hD n v hn)]; exact h.dec n v hn
  · intro p hp hs
    rw [hv, if_neg (hS p hs)]; exact h.src p hp hs
  · rintro p hp
    rw [hv]
    split
    · rename_i e; rw [e]
    · rename_i e; exact h.dir p (hp.resolve_right e)
  · intro n h1 h2 h3
    simp only [not_or] at h3
    rw [hv, if_neg h3.2]
    exact h.rest n h1 h2 h3.1
  · intro a p ha hp; exact Or.inl (h.above a p ha hp)

/-- the missing directories of a path are added -/
theorem J.dirs (hE : E.Sane) : ∀ (fuel : Nat) (c c' : MReg) (tgt t : String) (ds : List String) (u : Bool)
    (T : String → Prop), NoStar E tgt → J G D S T c → (u = true → ∀ q, MissingDir E (E.canon tgt) q → G.Tv q) →
    fileInit E fuel c tgt [] u = .ok (c', t, ds) →
    t = E.canon tgt ∧ ds = dirDep E u t ∧ J G D S (fun q => T q ∨ (u = true ∧ MissingDir E (E.canon tgt) q)) c' := by
  intro fuel
  induction fuel with
  | zero => intro c c' tgt t ds u T _ _ _ h; cases h
  | succ fuel ih =>
    intro c c' tgt t ds u T hs hJ hv h
    obtain ⟨rfl, hds, -⟩ := fileInit_keeps hE _ _ _ _ _ _ _ _ hs h
    refine ⟨rfl, by simpa [globs] using hds, ?_⟩
    simp only [fileInit] at h
    split at h
    · cases h
    · rename_i d1 deps1 hdir
      split at h
      · cases h
      · rename_i d2 hsrc
        simp only [Except.ok.injEq, Prod.mk.injEq] at h
        obtain ⟨rfl, -, -⟩ := h
        split at hdir
        · rename_i hc
          simp only [Bool.and_eq_true, Bool.not_eq_true'] at hc
          have hm : E.ex (parent (E.canon tgt)) = false := hc.2
          have hu : u = true := hc.1
          subst hu
          split at hdir
          · cases hdir
          · rename_i d0 t0 ds0 h0
            cases hdir
            have hd2 : d2 = d0.add (makeObj t0 ds0) .dir := by
              have hst : '*' ∉ (parent (E.canon tgt)).toList := nostar_anc hs.1 0
              rw [show globs E ([] ++ [parent (E.canon tgt)]) = [parent (E.canon tgt)] from globs_id (by simpa using hst)]
                at hsrc
              simp only [List.foldlM_cons, List.foldlM_nil, hm, Bool.false_eq_true, if_false, bind, Except.bind, pure,
                Except.pure] at hsrc
              cases hsrc; rfl
            subst hd2
            have hd : MissingDir E (E.canon tgt) (E.canon (parent (E.canon tgt))) := ⟨0, hm, rfl⟩
            have hs0 : NoStar E (parent (E.canon tgt)) :=
              ⟨hs.2 _ hd, fun q hq => hs.2 q (missingDir_parent hE hm hq)⟩
            obtain ⟨rfl, rfl, hJ0⟩ := ih _ _ _ _ _ _ _ hs0 hJ
              (fun _ q hq => hv rfl q (missingDir_parent hE hm hq)) h0
            have h1 : parent (E.canon (parent (E.canon tgt))) = E.canon (parent (parent (E.canon tgt))) :=
              hE.canonParent (E.canon tgt) 0 hm
            have hpl : makeObj (E.canon (parent (E.canon tgt)))
                (dirDep E (!E.ex (parent (parent (E.canon tgt)))) (E.canon (parent (E.canon tgt)))) =
                plain E (E.canon (parent (E.canon tgt))) := by
              rw [plain_eq]
              simp only [dirDep, h1, hE.exCanonParent]
              cases E.ex (parent (parent (E.canon tgt))) <;> rfl
            rw [hpl]
            refine (hJ0.addDir (hv rfl _ hd) (fun p hp => Or.inr ⟨?_, hp⟩)).congr (fun _ _ => Iff.rfl) (fun _ => Iff.rfl)
              fun q => ?_
            · cases hx : E.ex (parent (parent (E.canon tgt))) with
              | false => rfl
              | true => exact absurd hp (no_missingDir hE (by rw [h1, hE.exCanonParent]; exact hx))
            constructor
            · rintro ((h | ⟨_, h⟩) | rfl)
              · exact Or.inl h
              · exact Or.inr ⟨rfl, missingDir_parent hE hm h⟩
              · exact Or.inr ⟨rfl, hd⟩
            · rintro (h | ⟨_, i, hi, rfl⟩)
              · exact Or.inl (Or.inl h)
              · cases i with
                | zero => exact Or.inr rfl
                | succ i =>
                  have hall := missing_anc hE hi
                  have h2 : anc (E.canon (parent (E.canon tgt))) i = E.canon (anc (E.canon tgt) (i + 1)) :=
                    canon_anc hE (k := i + 1) fun j hj => hall j (by omega)
                  refine Or.inl (Or.inr ⟨?_, i, ?_, ?_⟩)
                  · have : E.ex (parent (parent (E.canon tgt))) = false := hall 1 (by omega)
                    rw [this]; rfl
                  · rw [h2, hE.exCanonAnc]; exact hi
                  · rw [h2, hE.idem]
        · rename_i hc
          cases hdir
          cases hsrc
          refine hJ.congr (fun _ _ => Iff.rfl) (fun _ => Iff.rfl) fun q => ?_
          constructor
          · exact Or.inl
          · rintro (h | ⟨rfl, i, hi, -⟩)
            · exact h
            · have := missing_anc hE hi 0 (by omega)
              rw [show anc (E.canon tgt) 0 = parent (E.canon tgt) from rfl] at this
              rw [this] at hc
              exact absurd rfl hc

/-- a source is added -/
theorem J.addSource (hE : E.Sane) (h : J G D S T c) {r : String} (hr : G.Rv r) (hno : val c (E.canon r) = none)
    (hD : ∀ v, ¬ D (E.canon r) v)
    (hT : ∀ p, MissingDir E (E.canon r) p → T p) :
    J G D (fun q => S q ∨ q = E.canon r) T (c.add (plain E (E.canon r)) .source) := by
  have hv := val_add h.lt (plain E (E.canon r)) .source
  have ht : (plain E (E.canon r)).tgt = E.canon r := rfl
  rw [ht] at hv
  refine ⟨lt_add h.lt _ _, h.subD, ?_, h.subT, ?_, ?_, ?_, ?_, ?_, ?_⟩
  rotate_left 6
  · intro hw
    refine (h.more hw).add h.lt (fun _ h => h) ?_ (fun _ => ⟨_, rfl, hE.idem r, hT⟩) ?_
    · rw [ht]
      refine h.free hw (G.nr r hr).2 fun m h1 h2 h3 e => ?_
      have := h.src _ (fun v hv => h2 (G.sp m _ v h1 (h.subD _ _ hv) (Or.inr rfl)).1) h3
      rw [e, hno] at this; cases this
    · intro v hv'
      rw [ht, hno] at hv'; cases hv'
  · rintro q (hq | rfl)
    · exact h.subS q hq
    · exact ⟨r, hr, rfl⟩
  · intro n v hn
    rw [hv, if_neg (by rintro rfl; exact hD v hn)]; exact h.dec n v hn
  · intro q hq hs
    rw [hv]
    split
    · rename_i e; rw [e]
    · rename_i e; exact h.src q hq (hs.resolve_right e)
  · intro q hq
    rw [hv, if_neg (by rintro rfl; exact G.st r hr (h.subT _ hq))]; exact h.dir q hq
  · intro n h1 h2 h3
    simp only [not_or] at h2
    rw [hv, if_neg h2.2]
    rcases h.rest n h1 h2.1 h3 with h4 | ⟨h4, h5, h6, h7⟩
    · exact Or.inl h4
    · exact Or.inr ⟨h4, h5, Or.inl h6, h7⟩
  · rintro q p (( hq | rfl) | hq) hp
    · exact h.above q p (Or.inl hq) hp
    · exact hT p hp
    · exact h.above q p (Or.inr hq) hp

/-- a target is declared -/
theorem J.addDecl (h : J G D S T c) {ob : Obj} {k : Kind} (hd : G.Dv ob.tgt (ob, k)) (hk : ¬ (k = .source ∨ k = .dir))
    (hT : k = .file → ∀ p, MissingDir E ob.tgt p → T p) :
    J G (fun n v => D n v ∨ n = ob.tgt ∧ v = (ob, k)) S T (c.add ob k) := by
  have hv := val_add h.lt ob k
  refine ⟨lt_add h.lt _ _, ?_, h.subS, h.subT, ?_, ?_, ?_, ?_, ?_, ?_⟩
  rotate_left 6
  · intro hw
    refine (h.more hw).add h.lt (fun _ h => h) ?_ (fun hk' => absurd hk' hk) ?_
    · exact h.free hw (G.nd _ _ hd) fun m h1 h2 _ e => h2 (G.sp m _ _ h1 hd (Or.inr e.symm)).1
    · intro v hv' hf
      by_cases hD : ∃ v, D ob.tgt v
      · obtain ⟨v', hD⟩ := hD
        rw [h.dec _ _ hD] at hv'
        cases hv'
        exact G.fn _ _ _ (h.subD _ _ hD) hd
      · exfalso
        simp only [not_exists] at hD
        by_cases hS : S ob.tgt
        · rw [h.src _ hD hS] at hv'; cases hv'; rcases hf with hf | hf <;> cases hf
        · rcases h.rest _ hD hS (fun ht => G.dt _ _ hd (h.subT _ ht)) with h1 | ⟨_, _, _, h4⟩
          · rw [h1, val_none.2 (G.nd _ _ hd)] at hv'; cases hv'
          · rw [h4] at hv'; cases hv'; rcases hf with hf | hf <;> cases hf
  · rintro n v (hn | ⟨rfl, rfl⟩)
    · exact h.subD n v hn
    · exact hd
  · rintro n v hn
    rw [hv]
    split
    · rename_i e
      subst e
      rcases hn with hn | ⟨_, rfl⟩
      · rw [G.fn _ _ _ (h.subD _ _ hn) hd]
      · rfl
    · rename_i e
      exact h.dec n v (hn.resolve_right fun h => e h.1)
  · intro q hq hs
    have hq1 : q ≠ ob.tgt := fun e => hq _ (Or.inr ⟨e, rfl⟩)
    rw [hv, if_neg hq1]
    exact h.src q (fun v hv => hq v (Or.inl hv)) hs
  · intro q hq
    rw [hv, if_neg (by rintro rfl; exact G.dt _ _ hd (h.subT _ hq))]
    exact h.dir q hq
  · intro n h1 h2 h3
    have hq1 : n ≠ ob.tgt := fun e => h1 _ (Or.inr ⟨e, rfl⟩)
    rw [hv, if_neg hq1]
    exact h.rest n (fun v hv => h1 v (Or.inl hv)) h2 h3
  · rintro q p (hq | ⟨ob', hq | ⟨rfl, he⟩⟩) hp
    · exact h.above q p (Or.inl hq) hp
    · exact h.above q p (Or.inr ⟨ob', hq⟩) hp
    · cases he; exact hT rfl p hp

/-- the source is already known -/
theorem J.known (h : J G D S T c) {r : String} (hr : G.Rv r) (hS : S (E.canon r) ∨ ∃ v, D (E.canon r) v)
    (hT : ∀ p, MissingDir E (E.canon r) p → T p) :
    J G D (fun q => S q ∨ q = E.canon r) (fun q => T q ∨ MissingDir E (E.canon r) q) c := by
  refine ⟨h.lt, h.subD, ?_, ?_, h.dec, ?_, ?_, ?_, ?_, fun hw => (h.more hw).mono fun _ => Or.inl⟩
  · rintro q (hq | rfl)
    · exact h.subS q hq
    · exact ⟨r, hr, rfl⟩
  · rintro q (hq | hq)
    · exact h.subT q hq
    · exact h.subT q (hT q hq)
  · rintro q hq (hs | rfl)
    · exact h.src q hq hs
    · rcases hS with hS | ⟨v, hS⟩
      · exact h.src _ hq hS
      · exact absurd hS (hq v)
  · rintro q (hq | hq)
    · exact h.dir q hq
    · exact h.dir q (hT q hq)
  · intro n h1 h2 h3
    simp only [not_or] at h2 h3
    rcases h.rest n h1 h2.1 h3.1 with h4 | ⟨h4, h5, h6, h7⟩
    · exact Or.inl h4
    · exact Or.inr ⟨h4, h5, Or.inl h6, h7⟩
  · rintro q p ((hq | rfl) | hq) hp
    · exact Or.inl (h.above q p (Or.inl hq) hp)
    · exact Or.inr hp
    · exact Or.inl (h.above q p (Or.inr hq) hp)

theorem val_has (r n : String) : val (c.has E.canon r).1 n = val c n ∨
    (n = r ∧ val c r = none ∧ val (c.has E.canon r).1 r = val c (E.canon r)) := by
  have ho : (c.has E.canon r).1.reg.obj = c.reg.obj := by
    unfold MReg.has Core.has
    simp only
    split
    · rfl
    · split <;> rfl
  have hk : (c.has E.canon r).1.kind = c.kind := rfl
  rcases get_has_cases (E := E) (c := c) r n with e | ⟨rfl, e1, e2⟩
  · left; unfold val; rw [e, ho, hk]
  · right
    refine ⟨rfl, val_none.2 e1, ?_⟩
    unfold val; rw [e2, ho, hk]

theorem lt_has (hlt : ∀ n o, c.reg.targets.get n = some o → o < c.reg.next) (r : String) :
    ∀ n o, (c.has E.canon r).1.reg.targets.get n = some o → o < (c.has E.canon r).1.reg.next := by
  have hn : (c.has E.canon r).1.reg.next = c.reg.next := by
    unfold MReg.has Core.has
    simp only
    split
    · rfl
    · split <;> rfl
  intro n o h
  rw [hn]
  rcases get_has_cases (E := E) (c := c) r n with e | ⟨rfl, -, e⟩
  · exact hlt n o (e ▸ h)
  · exact hlt _ o (e ▸ h)

theorem K.has (h : K E T c) (r : String) : K E T (c.has E.canon r).1 := by
  have ho : (c.has E.canon r).1.reg.obj = c.reg.obj := by
    unfold MReg.has Core.has
    simp only
    split
    · rfl
    · split <;> rfl
  have hk : (c.has E.canon r).1.kind = c.kind := rfl
  have hn : (c.has E.canon r).1.reg.next = c.reg.next := by
    unfold MReg.has Core.has
    simp only
    split
    · rfl
    · split <;> rfl
  refine ⟨?_, ?_, ?_, ?_, ?_⟩
  · unfold MReg.has Core.has
    simp only
    split
    · exact h.nodup
    · split
      · exact Dict.nodup_keys_set h.nodup _ _
      · exact h.nodup
  · intro n o hg
    rw [ho]
    have hs : c.reg.targets.get (c.reg.obj o).tgt = some o := by
      rcases get_has_cases (E := E) (c := c) r n with e | ⟨rfl, _, e⟩
      · exact h.cons n o (e ▸ hg)
      · exact h.cons _ o (e ▸ hg)
    rcases get_has_cases (E := E) (c := c) r (c.reg.obj o).tgt with e | ⟨e1, e2, _⟩
    · rw [e]; exact hs
    · rw [e1, e2] at hs; cases hs
  · rw [hn, hk]; exact h.blank
  · rw [ho, hk]; exact h.obs
  · rw [ho, hk]
    intro o hf
    obtain ⟨n, hv⟩ := h.regd o hf
    refine ⟨n, ?_⟩
    rcases val_has (E := E) (c := c) r n with e | ⟨rfl, e, _⟩
    · rw [e]; exact hv
    · rw [e] at hv; cases hv

/-- what a source can already be registered as -/
theorem J.taken (hE : E.Sane) (h : J G D S T c) {r : String} (hr : G.Rv r)
    (hn : val c r ≠ none ∨ val c (E.canon r) ≠ none) :
    (S (E.canon r) ∨ ∃ v, D (E.canon r) v) ∧ ∀ p, MissingDir E (E.canon r) p → T p := by
  have hkey : S (E.canon r) ∨ ∃ v, D (E.canon r) v := by
    by_contra hc
    simp only [not_or, not_exists] at hc
    have hcan : val c (E.canon r) = none := by
      rcases h.rest (E.canon r) hc.2 hc.1 (fun ht => G.st r hr (h.subT _ ht)) with h1 | ⟨_, h2, _⟩
      · rw [h1]; exact val_none.2 (G.nr r hr).2
      · exact absurd (hE.idem r) h2
    rcases hn with hn | hn
    · by_cases he : E.canon r = r
      · rw [he] at hcan; exact hn hcan
      · have h1 : ∀ v, ¬ D r v := fun v hv => he (G.sp r r v hr (h.subD _ _ hv) (Or.inl rfl)).1
        have h2 : ¬ S r := by
          intro hs
          obtain ⟨r', _, e⟩ := h.subS r hs
          exact he (by rw [e, hE.idem])
        have h3 : ¬ T r := fun ht => he (G.tc r (h.subT _ ht))
        rcases h.rest r h1 h2 h3 with h4 | ⟨_, _, h5, _⟩
        · exact hn (h4.trans (val_none.2 (G.nr r hr).1))
        · exact hc.1 h5
    · exact hn hcan
  refine ⟨hkey, fun p hp => ?_⟩
  rcases hkey with hs | ⟨⟨ob, k⟩, hd⟩
  · exact h.above _ p (Or.inl hs) hp
  · obtain ⟨he, h1 | h1⟩ := G.sp r _ _ hr (h.subD _ _ hd) (Or.inr rfl)
    · simp only at h1
      subst h1
      exact h.above _ p (Or.inr ⟨ob, hd⟩) hp
    · rw [he] at hp
      exact absurd hp (no_missingDir hE h1)

/-- `source` -/
theorem J.source (hE : E.Sane) {fuel : Nat} {r : String} (hr : G.Rv r) (hst : E.ex (parent (E.canon r)) = true ∨ NoStar E r)
    (hT : ∀ q, MissingDir E (E.canon r) q → G.Tv q) (h : J G D S T c) (hs : sourceG E fuel c r [] = .ok c') :
    J G D (fun q => S q ∨ q = E.canon r) (fun q => T q ∨ MissingDir E (E.canon r) q) c' := by
  unfold sourceG at hs
  simp only at hs
  split at hs
  · rename_i hh
    cases hs
    have hn : val c r ≠ none ∨ val c (E.canon r) ≠ none := by
      obtain ⟨o, ho | ⟨_, ho⟩⟩ := has_true.1 hh
      · left; rw [Ne, val_none, ho]; simp
      · right; rw [Ne, val_none, ho]; simp
    obtain ⟨hk, hm⟩ := h.taken hE hr hn
    refine J.known ?_ hr hk hm
    by_cases hnr : val c r = none
    · have hcr : E.canon r ≠ r := by
        intro e
        rw [e] at hn
        exact hn.elim (· hnr) (· hnr)
      have hDr : ∀ v, ¬ D r v := fun v hv => hcr (G.sp r r v hr (h.subD _ _ hv) (Or.inl rfl)).1
      have hDc : ∀ v, ¬ D (E.canon r) v := fun v hv => hcr (G.sp r _ v hr (h.subD _ _ hv) (Or.inr rfl)).1
      have hSr : ¬ S r := by
        intro hs
        obtain ⟨r', _, e⟩ := h.subS r hs
        exact hcr (by rw [e, hE.idem])
      have hTr : ¬ T r := fun ht => hcr (G.tc r (h.subT _ ht))
      have hSc : S (E.canon r) := hk.resolve_right fun ⟨v, hv⟩ => hDc v hv
      have hother : ∀ n, n ≠ r → val (c.has E.canon r).1 n = val c n :=
        fun n hne => (val_has r n).resolve_right fun h => hne h.1
      refine ⟨lt_has h.lt r, h.subD, h.subS, h.subT, ?_, ?_, ?_, ?_, h.above, fun hw => (h.more hw).has r⟩
      · intro n v hv
        rw [hother n (by rintro rfl; exact hDr v hv)]; exact h.dec n v hv
      · intro q hq hs
        rw [hother q (by rintro rfl; exact hSr hs)]; exact h.src q hq hs
      · intro q hq
        rw [hother q (by rintro rfl; exact hTr hq)]; exact h.dir q hq
      · intro n h1 h2 h3
        rcases val_has (E := E) (c := c) r n with e | ⟨rfl, _, e⟩
        · rw [e]; exact h.rest n h1 h2 h3
        · exact Or.inr ⟨hr, hcr, hSc, by rw [e]; exact h.src _ hDc hSc⟩
    · have hall : ∀ n, val (c.has E.canon r).1 n = val c n :=
        fun n => (val_has r n).resolve_right fun h => hnr h.2.1
      refine ⟨lt_has h.lt r, h.subD, h.subS, h.subT, ?_, ?_, ?_, ?_, h.above, fun hw => (h.more hw).has r⟩
      · intro n v hv; rw [hall]; exact h.dec n v hv
      · intro q hq hs; rw [hall]; exact h.src q hq hs
      · intro q hq; rw [hall]; exact h.dir q hq
      · intro n h1 h2 h3; rw [hall]; exact h.rest n h1 h2 h3
  · rename_i hh
    obtain ⟨he, hf0, hf1⟩ := has_false (by simpa using hh)
    rw [he] at hs
    split at hs
    · cases hs
    · rename_i d t ds h1
      cases hs
      have hDc : ∀ v, ¬ D (E.canon r) v := by
        intro v hv
        have := h.dec _ v hv
        rw [val_none.2 hf1] at this; cases this
      have hstep : t = E.canon r ∧ ds = dirDep E true t ∧
          J G D S (fun q => T q ∨ MissingDir E (E.canon r) q) d := by
        rcases hst with hx | hst
        · cases fuel with
          | zero => cases h1
          | succ fuel =>
            simp only [fileInit, hx, Bool.not_true, Bool.and_false, Bool.false_eq_true, if_false, globs,
              List.flatMap_nil, List.foldlM_nil, pure, Except.pure] at h1
            cases h1
            refine ⟨rfl, by simp [dirDep, hx], h.congr (fun _ _ => Iff.rfl) (fun _ => Iff.rfl) fun q => ?_⟩
            exact ⟨Or.inl, fun h => h.resolve_right (no_missingDir hE hx)⟩
        · obtain ⟨h2, h3, h4⟩ := J.dirs hE _ _ _ _ _ _ _ _ hst h (fun _ => hT) h1
          exact ⟨h2, h3, h4.congr (fun _ _ => Iff.rfl) (fun _ => Iff.rfl) fun q => by simp⟩
      obtain ⟨rfl, rfl, hJ⟩ := hstep
      have hno : val d (E.canon r) = none := by
        have hdc : ∀ c : MReg, ∀ S T, J G D S T c → val c (E.canon r) = none → ¬ S (E.canon r) := by
          intro c S T h hv hs
          rw [h.src _ hDc hs] at hv; cases hv
        rcases hJ.rest (E.canon r) hDc (hdc _ _ _ h (val_none.2 hf1)) (fun ht => G.st r hr (hJ.subT _ ht)) with h1 | ⟨_, h1, _⟩
        · rw [h1]; exact val_none.2 (G.nr r hr).2
        · exact absurd (hE.idem r) h1
      rw [← plain_eq]
      exact hJ.addSource hE hr hno hDc fun p hp => Or.inr hp

/-- the existing dependencies -/
theorem J.deps (hE : E.Sane) {fuel : Nat} : ∀ (l : List String) (c c' : MReg) (S : String → Prop),
    (∀ r ∈ l.filter E.ex, G.Rv r) → J G D S T c → addSources E fuel c l = .ok c' →
    J G D (fun q => S q ∨ ∃ r ∈ l.filter E.ex, q = E.canon r) T c' := by
  intro l
  induction l with
  | nil =>
    intro c c' S _ h hs
    cases hs
    exact h.congr (fun _ _ => Iff.rfl) (fun q => by simp) fun _ => Iff.rfl
  | cons r l ih =>
    intro c c' S hR h hs
    unfold addSources at hs
    simp only [List.foldlM_cons, bind, Except.bind] at hs
    split at hs
    · cases hs
    · rename_i d1 h1
      split at h1
      · rename_i hx
        have hp := hE.exParent r hx
        have h1 : sourceG E fuel c r [] = .ok d1 := h1
        have hJ := h.source hE (hR r (by simp [hx])) (Or.inl hp) (fun q hq => absurd hq (no_missingDir hE hp)) h1
        have hJ' : J G D (fun q => S q ∨ q = E.canon r) T d1 := hJ.congr (fun _ _ => Iff.rfl) (fun _ => Iff.rfl)
          fun q => ⟨fun h => h.resolve_right (no_missingDir hE hp), Or.inl⟩
        refine (ih d1 c' _ (fun x hx' => hR x ?_) hJ' hs).congr (fun _ _ => Iff.rfl) (fun q => ?_) fun _ => Iff.rfl
        · rw [List.filter_cons, if_pos hx]; exact List.mem_cons_of_mem _ hx'
        · rw [List.filter_cons, if_pos hx]
          simp [or_assoc]
      · rename_i hx
        cases h1
        refine (ih c c' _ (fun x hx' => hR x ?_) h hs).congr (fun _ _ => Iff.rfl) (fun q => ?_) fun _ => Iff.rfl
        · rw [List.filter_cons, if_neg hx]; exact hx'
        · rw [List.filter_cons, if_neg hx]

/-- the constructor of files -/
theorem J.file (hE : E.Sane) {fuel : Nat} {p t : String} {deps ds : List String} (hs : NoStar E p) (h : J G D S T c)
    (hT : ∀ q, MissingDir E (E.canon p) q → G.Tv q) (hR : ∀ r ∈ (globs E deps).filter E.ex, G.Rv r)
    (hf : fileInit E fuel c p deps true = .ok (c', t, ds)) :
    t = E.canon p ∧ makeObj t ds = madeFrom E p deps ∧
    J G D (fun q => S q ∨ ∃ r ∈ (globs E deps).filter E.ex, q = E.canon r) (fun q => T q ∨ MissingDir E (E.canon p) q) c' := by
  obtain ⟨rfl, hds, -⟩ := fileInit_keeps hE _ _ _ _ _ _ _ _ hs hf
  refine ⟨rfl, by rw [hds]; rfl, ?_⟩
  cases fuel with
  | zero => cases hf
  | succ fuel =>
    obtain ⟨c1, ds1, h1, h2⟩ : ∃ c1 ds1, fileInit E (fuel + 1) c p [] true = .ok (c1, E.canon p, ds1) ∧
        addSources E fuel c1 (globs E deps) = .ok c' := by
      simp only [fileInit] at hf
      by_cases hx : E.ex (parent (E.canon p)) = true
      · simp only [hx, Bool.not_true, Bool.and_false, Bool.false_eq_true, if_false] at hf
        refine ⟨c, [], by simp [fileInit, hx, globs, pure, Except.pure], ?_⟩
        unfold addSources
        split at hf
        · cases hf
        · rename_i d hd
          cases hf
          exact hd
      · have hx : E.ex (parent (E.canon p)) = false := by simpa using hx
        simp only [hx, Bool.not_false, Bool.and_true, if_true] at hf
        have hst : '*' ∉ (parent (E.canon p)).toList := nostar_anc hs.1 0
        have hg : globs E [parent (E.canon p)] = [parent (E.canon p)] := globs_id (by simpa using hst)
        split at hf
        · cases hf
        · rename_i d deps1 hd
          split at hd
          · cases hd
          · rename_i d0 t0 ds0 h0
            cases hd
            refine ⟨d0.add (makeObj t0 ds0) .dir, [parent (E.canon p)], ?_, ?_⟩
            · simp only [fileInit, hx, h0, Bool.not_false, Bool.and_true, if_true, List.nil_append, hg, List.foldlM_cons,
                List.foldlM_nil, Bool.false_eq_true, if_false, bind, Except.bind, pure, Except.pure]
            · rw [globs_append, hg] at hf
              unfold addSources
              simp only [List.foldlM_append, List.foldlM_cons, List.foldlM_nil, hx, Bool.false_eq_true, if_false, bind,
                Except.bind, pure, Except.pure] at hf
              split at hf
              · cases hf
              · rename_i d2 hd2
                split at hd2
                · cases hd2
                · rename_i d3 hd3
                  cases hd2
                  cases hf
                  exact hd3
    obtain ⟨-, -, hJ⟩ := J.dirs hE _ _ _ _ _ _ _ _ hs h (fun _ => hT) h1
    exact (hJ.deps hE _ _ _ _ hR h2).congr (fun _ _ => Iff.rfl) (fun _ => Iff.rfl) fun q => by simp

/-- the target that is added by a call -/
def Declares (E : Env) (cl : CallD) (n : String) (v : Obj × Kind) : Prop := cl.decl E = some (n, v)

/-- one call -/
theorem J.call (hE : E.Sane) {w w' : World} {cl : CallD} (h : J G D S T w.dflt)
    (hD : ∀ n v, Declares E cl n v → G.Dv n v) (hR : ∀ r ∈ cl.sources E, G.Rv r) (hT : ∀ q, cl.Dir E q → G.Tv q)
    (hs : ∀ p ∈ cl.inside E, NoStar E p)
    (hm : ∀ dir, cl = .makedir dir → E.ex (parent dir) = true → E.ex (parent (E.canon dir)) = true)
    (hc : callD E lim w cl = .ok w') :
    J G (fun n v => D n v ∨ Declares E cl n v) (fun q => S q ∨ ∃ r ∈ cl.sources E, q = E.canon r)
      (fun q => T q ∨ cl.Dir E q) w'.dflt := by
  have hT' : ∀ p ∈ cl.inside E, ∀ q, MissingDir E (E.canon p) q → G.Tv q := fun p hp q hq => hT q (Or.inl ⟨p, hp, hq⟩)
  cases cl with
  | source src =>
    simp only [callD, Except.map] at hc
    split at hc
    · cases hc
    · rename_i d h1
      cases hc
      refine (h.source hE (hR src (by simp [CallD.sources])) (Or.inr (hs src (by simp [CallD.inside])))
        (hT' src (by simp [CallD.inside])) h1).congr ?_ ?_ ?_
      · simp [Declares, CallD.decl]
      · simp [CallD.sources]
      · simp [CallD.Dir, CallD.inside]
  | makefile tgt deps =>
    simp only [callD, makefileG] at hc
    split at hc
    · cases hc
    · rename_i d t ds h1
      cases hc
      obtain ⟨rfl, h2, h3⟩ := h.file hE (hs tgt (by simp [CallD.inside])) (hT' tgt (by simp [CallD.inside]))
        (fun r hr => hR r hr) h1
      simp only [World.addTo, Bool.false_eq_true, if_false, h2]
      refine (h3.addDecl (ob := madeFrom E tgt deps) (k := .file) (hD _ _ rfl) (by simp) fun _ p hp => Or.inr hp).congr ?_ ?_ ?_
      · intro n v
        simp only [Declares, CallD.decl, Option.some.injEq, Prod.mk.injEq]
        exact or_congr_right ⟨fun ⟨a, b⟩ => ⟨a.symm, b.symm⟩, fun ⟨a, b⟩ => ⟨a.symm, b.symm⟩⟩
      · simp [CallD.sources]
      · simp [CallD.Dir, CallD.inside]
  | copy tgt src adddeps =>
    simp only [callD, copyG] at hc
    split at hc
    · cases hc
    · rename_i d0 h0
      simp only [makefileG] at hc
      split at hc
      · cases hc
      · rename_i d t ds h1
        cases hc
        have hJ0 := h.source hE (hR (E.home src) (by simp [CallD.sources])) (Or.inr (hs (E.home src) (by simp [CallD.inside])))
          (hT' (E.home src) (by simp [CallD.inside])) h0
        obtain ⟨rfl, h2, h3⟩ := hJ0.file hE (hs (E.home tgt) (by simp [CallD.inside]))
          (hT' (E.home tgt) (by simp [CallD.inside])) (fun r hr => hR r (List.mem_cons_of_mem _ hr)) h1
        simp only [World.addTo, Bool.false_eq_true, if_false, h2]
        refine (h3.addDecl (ob := madeFrom E (E.home tgt) (E.home src :: adddeps)) (k := .file) (hD _ _ rfl)
          (by simp) fun _ p hp => Or.inr hp).congr ?_ ?_ ?_
        · intro n v
          simp only [Declares, CallD.decl, Option.some.injEq, Prod.mk.injEq]
          exact or_congr_right ⟨fun ⟨a, b⟩ => ⟨a.symm, b.symm⟩, fun ⟨a, b⟩ => ⟨a.symm, b.symm⟩⟩
        · intro q
          simp only [CallD.sources, List.exists_mem_cons_iff, or_assoc]
        · intro q
          simp [CallD.Dir, CallD.inside, or_assoc]
  | fileset tgt targets deps =>
    simp only [callD, filesetG] at hc
    split at hc
    · cases hc
    · rename_i d h1
      cases hc
      have h3 := h.deps hE _ _ _ _ (fun r hr => hR r hr) h1
      simp only [World.addTo, Bool.false_eq_true, if_false]
      refine (h3.addDecl (ob := makeObj tgt (globs E (deps ++ targets))) (k := .fileset) (hD _ _ rfl)
        (by simp) (by intro h; cases h)).congr ?_ ?_ ?_
      · intro n v
        simp only [Declares, CallD.decl, Option.some.injEq, Prod.mk.injEq]
        exact or_congr_right ⟨fun ⟨a, b⟩ => ⟨a.symm, b.symm⟩, fun ⟨a, b⟩ => ⟨a.symm, b.symm⟩⟩
      · simp [CallD.sources]
      · simp [CallD.Dir, CallD.inside]
  | target tgt deps upd act =>
    simp only [callD, targetG] at hc
    split at hc
    · cases hc
    · rename_i d h1
      cases hc
      have h3 := h.deps hE _ _ _ _ (fun r hr => hR r hr) h1
      refine (h3.addDecl (ob := ⟨tgt, globs E deps, upd, [], act⟩) (k := .other) (hD _ _ rfl)
        (by simp) (by intro h; cases h)).congr ?_ ?_ ?_
      · intro n v
        simp only [Declares, CallD.decl, Option.some.injEq, Prod.mk.injEq]
        exact or_congr_right ⟨fun ⟨a, b⟩ => ⟨a.symm, b.symm⟩, fun ⟨a, b⟩ => ⟨a.symm, b.symm⟩⟩
      · simp [CallD.sources]
      · simp [CallD.Dir, CallD.inside]
  | makedir dir =>
    simp only [callD, dirkeepG, Except.map] at hc
    split at hc
    · cases hc
    · rename_i d' h1
      cases hc
      split at h1
      · cases h1
      · rename_i d t ds h2
        cases h1
        obtain ⟨rfl, rfl, h3⟩ := J.dirs hE _ _ _ _ _ _ _ _ (hs dir (by simp [CallD.inside])) h
          (fun _ => hT' dir (by simp [CallD.inside])) h2
        have hpl : makeObj (E.canon dir) (dirDep E (!E.ex (parent dir)) (E.canon dir)) = plain E (E.canon dir) := by
          rw [plain_eq]
          cases hx : E.ex (parent dir) with
          | false => rfl
          | true => simp [dirDep, hm dir rfl hx]
        simp only [hpl]
        refine (h3.addDir (hT _ (Or.inr ⟨dir, rfl, rfl⟩)) (fun p hp => Or.inr ⟨?_, hp⟩)).congr ?_ ?_ ?_
        · cases hx : E.ex (parent dir) with
          | false => rfl
          | true => exact absurd hp (no_missingDir hE (hm dir rfl hx))
        · simp [Declares, CallD.decl]
        · simp [CallD.sources]
        · intro q
          simp only [CallD.Dir, CallD.inside, List.mem_singleton, exists_eq_left, CallD.makedir.injEq, exists_eq_left',
            or_assoc]
          cases hx : E.ex (parent dir) with
          | false => simp
          | true => simp [no_missingDir hE (hm dir rfl hx)]

/-- a description -/
theorem J.calls (hE : E.Sane) : ∀ (l : List CallD) (w w' : World) (D : String → Obj × Kind → Prop) (S T : String → Prop),
    J G D S T w.dflt → (∀ cl ∈ l, ∀ n v, Declares E cl n v → G.Dv n v) → (∀ cl ∈ l, ∀ r ∈ cl.sources E, G.Rv r) →
    (∀ cl ∈ l, ∀ q, cl.Dir E q → G.Tv q) → (∀ cl ∈ l, ∀ p ∈ cl.inside E, NoStar E p) →
    (∀ dir, .makedir dir ∈ l → E.ex (parent dir) = true → E.ex (parent (E.canon dir)) = true) →
    l.foldlM (callD E lim) w = .ok w' →
    J G (fun n v => D n v ∨ ∃ cl ∈ l, Declares E cl n v) (fun q => S q ∨ ∃ cl ∈ l, ∃ r ∈ cl.sources E, q = E.canon r)
      (fun q => T q ∨ ∃ cl ∈ l, cl.Dir E q) w'.dflt := by
  intro l
  induction l with
  | nil =>
    intro w w' D S T h _ _ _ _ _ hc
    cases hc
    exact h.congr (by simp) (by simp) (by simp)
  | cons cl l ih =>
    intro w w' D S T h hD hR hT hs hm hc
    simp only [List.foldlM_cons, bind, Except.bind] at hc
    split at hc
    · cases hc
    · rename_i w1 h1
      have h2 := h.call hE (hD cl (by simp)) (hR cl (by simp)) (hT cl (by simp)) (hs cl (by simp))
        (fun dir e => hm dir (by simp [e])) h1
      refine (ih w1 w' _ _ _ h2 (fun a ha => hD a (by simp [ha])) (fun a ha => hR a (by simp [ha]))
        (fun a ha => hT a (by simp [ha])) (fun a ha => hs a (by simp [ha])) (fun a ha => hm a (by simp [ha])) hc).congr ?_ ?_ ?_
      · simp [or_assoc]
      · simp [or_assoc]
      · simp [or_assoc]

/-- the meaning of names after a description -/
theorem J.unique (hE : E.Sane) (h : J G D S T c) (h' : J G D S T c') (n : String) : c.means E.canon n = c'.means E.canon n := by
  have hcan : ∀ q, E.canon q = q → val c q = val c' q := by
    intro q hq
    by_cases hD : ∃ v, D q v
    · obtain ⟨v, hD⟩ := hD
      rw [h.dec q v hD, h'.dec q v hD]
    · simp only [not_exists] at hD
      by_cases hS : S q
      · rw [h.src q hD hS, h'.src q hD hS]
      · by_cases hT : T q
        · rw [h.dir q hT, h'.dir q hT]
        · rcases h.rest q hD hS hT with h1 | ⟨_, h2, _⟩
          · rcases h'.rest q hD hS hT with h3 | ⟨_, h2, _⟩
            · rw [h1, h3]
            · exact absurd hq h2
          · exact absurd hq h2
  rw [means_val, means_val, hcan (E.canon n) (hE.idem n)]
  by_cases hD : ∃ v, D n v
  · obtain ⟨v, hD⟩ := hD
    rw [h.dec n v hD, h'.dec n v hD]
  · simp only [not_exists] at hD
    by_cases hS : S n
    · rw [h.src n hD hS, h'.src n hD hS]
    · by_cases hT : T n
      · rw [h.dir n hT, h'.dir n hT]
      · have halias : G.Rv n → E.canon n ≠ n → S (E.canon n) → val c' (E.canon n) = some (plain E (E.canon n), .source) := by
          intro h1 h2 h3
          exact h'.src _ (fun v hv => h2 (G.sp n _ v h1 (h.subD _ _ hv) (Or.inr rfl)).1) h3
        rcases h.rest n hD hS hT with h1 | ⟨h1, h2, h3, h4⟩
        · rcases h'.rest n hD hS hT with h1' | ⟨h1', h2', h3', h4'⟩
          · rw [h1, h1']
          · rw [h1, h4', val_none.2 (G.nr n h1').1, halias h1' h2' h3']
        · rcases h'.rest n hD hS hT with h1' | ⟨h1', h2', h3', h4'⟩
          · rw [h4, h1', val_none.2 (G.nr n h1).1, halias h1 h2 h3]
          · rw [h4, h4']

/-- the names of an orderly description -/
def Orderly.ctx (hE : E.Sane) {calls : List CallD} (h : Orderly E c calls) (whole : Prop)
    (hw : whole → Consistent c.reg) : Ctx E where
  c0 := c
  Dv n v := ∃ cl ∈ calls, Declares E cl n v
  Rv r := ∃ cl ∈ calls, r ∈ cl.sources E
  Tv q := ∃ cl ∈ calls, cl.Dir E q
  fn := by
    rintro n v v' ⟨cl, h1, h2⟩ ⟨cl', h3, h4⟩
    by_cases he : cl = cl'
    · subst he
      unfold Declares at h2 h4
      rw [h2] at h4; cases h4; rfl
    · exfalso
      have hsym : Std.Symm fun a b : CallD => ∀ n v n' v', a.decl E = some (n, v) → b.decl E = some (n', v') → n ≠ n' :=
        ⟨fun a b hab n v n' v' hb ha e => hab n' v' n v ha hb e.symm⟩
      have := h.once.forall h1 h3 he
      exact this n v n v' h2 h4 rfl
  dt := by
    rintro q v ⟨cl, h1, h2⟩ ⟨cl', h3, h4⟩
    exact (h.nodir cl h1 cl' h3 q h4).1 q v h2 rfl
  st := by
    rintro r ⟨cl, h1, h2⟩ ⟨cl', h3, h4⟩
    exact (h.nodir cl h1 cl' h3 _ h4).2 r h2 rfl
  sp := by
    rintro r n v ⟨cl, h1, h2⟩ ⟨cl', h3, h4⟩ he
    exact h.spelled cl h1 cl' h3 r h2 n v h4 he
  nd := by
    rintro n v ⟨cl, h1, h2⟩
    exact (h.new cl h1).1 n v h2
  nr := by
    rintro r ⟨cl, h1, h2⟩
    exact (h.new cl h1).2.1 r h2
  nt := by
    rintro q ⟨cl, h1, h2⟩
    exact (h.new cl h1).2.2 q h2
  tc := by
    rintro q ⟨cl, h1, ⟨p, hp, i, hi, rfl⟩ | ⟨dir, _, rfl⟩⟩
    · exact hE.idem _
    · exact hE.idem _
  dn := by
    rintro n v ⟨cl, _, h2⟩
    unfold Declares at h2
    cases cl <;> simp only [CallD.decl, Option.some.injEq, Prod.mk.injEq, reduceCtorEq] at h2 <;> obtain ⟨rfl, rfl⟩ := h2 <;> rfl
  whole := whole
  cons := hw

/-- **C143**, proved part: in whatever order the calls of an orderly description are made, each name stands for a target with
the same attributes, of the same class, or for none.  Missing: dependencies that are spelled in another way than the
canonical path of the file that another call makes (`C143_violated`). -/
theorem C143_partial (hE : E.Sane) {w w1 w2 : World} (hw : Wf E.canon w.dflt) {calls calls' : List CallD}
    (ho : Orderly E w.dflt calls) (hp : calls.Perm calls') (h1 : calls.foldlM (callD E lim) w = .ok w1)
    (h2 : calls'.foldlM (callD E lim) w = .ok w2) (n : String) :
    w1.dflt.means E.canon n = w2.dflt.means E.canon n := by
  have h0 : J (ho.ctx hE False False.elim) (fun _ _ => False) (fun _ => False) (fun _ => False) w.dflt :=
    ⟨fun n o h => hw n o (Or.inl h), fun _ _ h => h.elim, fun _ h => h.elim, fun _ h => h.elim, fun _ _ h => h.elim,
      fun _ _ h => h.elim, fun _ h => h.elim, fun _ _ _ _ => Or.inl rfl,
      by rintro q p (h | ⟨_, h⟩) <;> exact h.elim, False.elim⟩
  have hm : ∀ {cl : CallD}, cl ∈ calls' → cl ∈ calls := fun h => hp.mem_iff.2 h
  have j1 := J.calls hE calls w w1 _ _ _ h0 (fun cl hc n v h => ⟨cl, hc, h⟩) (fun cl hc r h => ⟨cl, hc, h⟩)
    (fun cl hc q h => ⟨cl, hc, h⟩) ho.nostar ho.makedir h1
  have j2 := J.calls hE calls' w w2 _ _ _ h0 (fun cl hc n v h => ⟨cl, hm hc, h⟩) (fun cl hc r h => ⟨cl, hm hc, h⟩)
    (fun cl hc q h => ⟨cl, hm hc, h⟩) (fun cl hc => ho.nostar cl (hm hc)) (fun dir hc => ho.makedir dir (hm hc)) h2
  refine j1.unique hE (j2.congr ?_ ?_ ?_) n
  · intro n v; simp only [hp.mem_iff]
  · intro q; simp only [hp.mem_iff]
  · intro q; simp only [hp.mem_iff]

/-! ### consequences -/

theorem means_some {canon : String → String} {n : String} {v : Obj × Kind} :
    c.means canon n = some v ↔ ∃ o, Resolves canon c.reg n o ∧ (c.reg.obj o, c.kind o) = v := by
  unfold MReg.means Resolves
  cases c.reg.targets.get n with
  | some o => simp
  | none =>
    cases c.reg.targets.get (canon n) with
    | some o => simp
    | none => simp

theorem get_means {canon : String → String} (n : String) :
    (Core.get canon c.reg n).map (fun o => c.reg.obj o) = match c.means canon n with
      | some v => .ok v.1
      | none => .error .exit := by
  unfold MReg.means Core.get
  cases c.reg.targets.get n with
  | some o => rfl
  | none => cases c.reg.targets.get (canon n) <;> rfl

/-- **C143**, consequence: the dependencies of every target are the same, and computing them fails or not alike. -/
theorem same_depends {canon : String → String} (h : ∀ n, c.means canon n = c'.means canon n) (lim : Nat) (cache : Cache)
    (tgt : String) (incroot : Bool) :
    dependsAsSet canon c.reg lim cache tgt incroot = dependsAsSet canon c'.reg lim cache tgt incroot := by
  have key : ∀ (fuel : Nat) (n : String) (acc : List String),
      dependsAsSetImpl canon c.reg fuel n acc = dependsAsSetImpl canon c'.reg fuel n acc := by
    intro fuel
    induction fuel with
    | zero => intro n acc; rfl
    | succ fuel ih =>
      intro n acc
      have hg := (get_means (c := c) (canon := canon) n).trans ((by rw [h n] : _ = _).trans
        (get_means (c := c') (canon := canon) n).symm)
      simp only [dependsAsSetImpl]
      cases h1 : Core.get canon c.reg n with
      | error e =>
        rw [h1] at hg
        cases h2 : Core.get canon c'.reg n with
        | error e' => rw [h2] at hg; simp only [Except.map] at hg; cases hg; rfl
        | ok o => rw [h2] at hg; simp only [Except.map] at hg; cases hg
      | ok o =>
        rw [h1] at hg
        cases h2 : Core.get canon c'.reg n with
        | error e' => rw [h2] at hg; simp only [Except.map] at hg; cases hg
        | ok o' =>
          rw [h2] at hg
          simp only [Except.map, Except.ok.injEq] at hg
          simp only [hg, ih]
  unfold dependsAsSet
  simp only [key]

/-- the targets of two projects that a name stands for -/
def Twin (canon : String → String) (P P' : Proj α) (o o' : Nat) : Prop :=
  P.reg.obj o = P'.reg.obj o' ∧ P.kind o = P'.kind o' ∧ ∃ n, Resolves canon P.reg n o ∧ Resolves canon P'.reg n o'

theorem Twin.symm {canon : String → String} {P P' : Proj α} {o o' : Nat} (h : Twin canon P P' o o') : Twin canon P' P o' o :=
  ⟨h.1.symm, h.2.1.symm, h.2.2.imp fun _ h => ⟨h.2, h.1⟩⟩

theorem twin_of {canon : String → String} {P P' : Proj α}
    (h : ∀ n, (⟨P.reg, P.kind⟩ : MReg).means canon n = (⟨P'.reg, P'.kind⟩ : MReg).means canon n) {n : String} {o : Nat}
    (hr : Resolves canon P.reg n o) : ∃ o', Resolves canon P'.reg n o' ∧ Twin canon P P' o o' := by
  have h1 := (means_some (c := ⟨P.reg, P.kind⟩) (canon := canon)).2 ⟨o, hr, rfl⟩
  rw [h n] at h1
  obtain ⟨o', h2, h3⟩ := means_some.1 h1
  simp only [Prod.mk.injEq] at h3
  exact ⟨o', h2, h3.1.symm, h3.2.symm, n, hr, h2⟩

theorem Twin.dep {canon : String → String} {P P' : Proj α}
    (h : ∀ n, (⟨P.reg, P.kind⟩ : MReg).means canon n = (⟨P'.reg, P'.kind⟩ : MReg).means canon n) {o o' a : Nat}
    (ht : Twin canon P P' o o') (hd : ObjDep canon P.reg o a) : ∃ a', ObjDep canon P'.reg o' a' ∧ Twin canon P P' a a' := by
  obtain ⟨d, h1, h2⟩ := hd
  obtain ⟨a', h3, h4⟩ := twin_of h h2
  exact ⟨a', ⟨d, by rw [← ht.1]; exact h1, h3⟩, h4⟩

theorem Twin.input {canon : String → String} {P P' : Proj α}
    (h : ∀ n, (⟨P.reg, P.kind⟩ : MReg).means canon n = (⟨P'.reg, P'.kind⟩ : MReg).means canon n) {o a : Nat}
    (hd : InputOf P canon o a) : ∀ {o' : Nat}, Twin canon P P' o o' → ∃ a', InputOf P' canon o' a' ∧ Twin canon P P' a a' := by
  induction hd with
  | direct h1 h2 =>
    intro o' ht
    obtain ⟨a', h3, h4⟩ := ht.dep h h1
    exact ⟨a', .direct h3 (by rw [← h4.2.1]; exact h2), h4⟩
  | through h1 h2 _ ih =>
    intro o' ht
    obtain ⟨s', h3, h4⟩ := ht.dep h h1
    obtain ⟨a', h5, h6⟩ := ih h4
    exact ⟨a', .through h3 (by rw [← h4.2.1]; exact h2) h5, h6⟩

theorem Twin.needsWork {canon : String → String} {P P' : Proj α}
    (h : ∀ n, (⟨P.reg, P.kind⟩ : MReg).means canon n = (⟨P'.reg, P'.kind⟩ : MReg).means canon n)
    (hu : ∀ n o o', Resolves canon P.reg n o → Resolves canon P'.reg n o' → P.force o = P'.force o' ∧ P.upd o = P'.upd o')
    {V : String → Info} {o o' : Nat} (ht : Twin canon P P' o o') (hn : NeedsWork P canon V o) : NeedsWork P' canon V o' := by
  obtain ⟨a, h1, h2⟩ := hn
  obtain ⟨a', h3, h4⟩ : ∃ a', Closure canon P'.reg o' a' ∧ Twin canon P P' a a' := by
    clear h2
    induction h1 with
    | refl => exact ⟨o', .refl, ht⟩
    | tail _ hd ih =>
      obtain ⟨b', h3, h4⟩ := ih
      obtain ⟨a', h5, h6⟩ := h4.dep h hd
      exact ⟨a', h3.tail h5, h6⟩
  refine ⟨a', h3, ?_⟩
  obtain ⟨n, h5, h6⟩ := h4.2.2
  obtain ⟨hf, hup⟩ := hu n a a' h5 h6
  have hfile : (P.force a = true ∨ (V (P.path a)).exist = false ∨
      ∃ b, InputOf P canon a b ∧ (V (P.path b)).mtime > (V (P.path a)).mtime) →
      (P'.force a' = true ∨ (V (P'.path a')).exist = false ∨
      ∃ b, InputOf P' canon a' b ∧ (V (P'.path b)).mtime > (V (P'.path a')).mtime) := by
    rintro (h7 | h7 | ⟨b, h7, h8⟩)
    · exact Or.inl (hf ▸ h7)
    · exact Or.inr (Or.inl (by rw [Proj.path, ← h4.1]; exact h7))
    · obtain ⟨b', h9, h10⟩ := Twin.input h h7 h4
      exact Or.inr (Or.inr ⟨b', h9, by rw [Proj.path, Proj.path, ← h4.1, ← h10.1]; exact h8⟩)
  unfold OutOfDate at h2 ⊢
  rw [← h4.2.1]
  cases hk : P.kind a with
  | file => rw [hk] at h2; exact hfile h2
  | source => rw [hk] at h2; exact hfile h2
  | dir => rw [hk] at h2; simp only at h2 ⊢; rw [Proj.path, ← h4.1]; exact h2
  | fileset => rw [hk] at h2; exact h2
  | other => rw [hk] at h2; simp only at h2 ⊢; rw [← hup]; exact h2

/-- **C143**, consequences for builds, proved part: the dependency sets are the same, and each target is out of date in both
cases or in none.  The `force` options and the update functions belong to the names. -/
theorem C143_builds_partial (hE : E.Sane) {w w1 w2 : World} (hw : Wf E.canon w.dflt) {calls calls' : List CallD}
    (ho : Orderly E w.dflt calls) (hp : calls.Perm calls') (h1 : calls.foldlM (callD E lim) w = .ok w1)
    (h2 : calls'.foldlM (callD E lim) w = .ok w2) :
    (∀ lim' cache tgt incroot, dependsAsSet E.canon w1.dflt.reg lim' cache tgt incroot =
      dependsAsSet E.canon w2.dflt.reg lim' cache tgt incroot) ∧
    ∀ P P' : Proj α, P.reg = w1.dflt.reg → P.kind = w1.dflt.kind → P'.reg = w2.dflt.reg → P'.kind = w2.dflt.kind →
      (∀ n o o', Resolves E.canon P.reg n o → Resolves E.canon P'.reg n o' → P.force o = P'.force o' ∧ P.upd o = P'.upd o') →
      ∀ n o, Resolves E.canon P.reg n o → ∃ o', Resolves E.canon P'.reg n o' ∧
        ∀ V, NeedsWork P E.canon V o ↔ NeedsWork P' E.canon V o' := by
  have hm := C143_partial hE hw ho hp h1 h2
  refine ⟨same_depends hm, ?_⟩
  intro P P' e1 e2 e3 e4 hu n o hr
  have hm' : ∀ n, (⟨P.reg, P.kind⟩ : MReg).means E.canon n = (⟨P'.reg, P'.kind⟩ : MReg).means E.canon n := by
    rw [e1, e2, e3, e4]; exact hm
  obtain ⟨o', h3, h4⟩ := twin_of hm' hr
  refine ⟨o', h3, fun V => ⟨h4.needsWork hm' hu, h4.symm.needsWork (fun n => (hm' n).symm) ?_⟩⟩
  intro n a a' ha ha'
  obtain ⟨hf, hu⟩ := hu n a' a ha' ha
  exact ⟨hf.symm, hu.symm⟩

/-! ### any order can be built -/

theorem K.licantReg {T : String → Prop} : K E T licantReg where
  nodup := by decide +kernel
  cons n o h := by rw [(licantReg_get h).2.1]; exact h
  blank o _ := licantReg_kind o
  obs o h := by rcases h with h | h <;> rw [licantReg_kind] at h <;> cases h
  regd o h := by rcases h with h | h <;> rw [licantReg_kind] at h <;> cases h

/-- each call is reasonable when it is made -/
def ReasonableSeq (E : Env) (lim : Nat) (w : World) (calls : List CallD) : Prop :=
  ∀ pre cl post w', calls = pre ++ cl :: post → pre.foldlM (callD E lim) w = .ok w' → ReasonableD E lim w'.dflt cl

theorem ReasonableSeq.described : ∀ {calls : List CallD} {w w' : World}, DescribedD E lim w → ReasonableSeq E lim w calls →
    calls.foldlM (callD E lim) w = .ok w' → DescribedD E lim w'
  | [], w, w', hw, _, h => by cases h; exact hw
  | cl :: calls, w, w', hw, hr, h => by
    simp only [List.foldlM_cons, bind, Except.bind] at h
    split at h
    · cases h
    · rename_i w1 h1
      refine ReasonableSeq.described (.call cl hw (hr [] cl calls w rfl rfl) h1) ?_ h
      intro pre cl' post w2 he h2
      refine hr (cl :: pre) cl' post w2 (by rw [he]; rfl) ?_
      simp only [List.foldlM_cons, bind, Except.bind, h1]
      exact h2

/-- **C143**, proved part: a project that can be built when it is described in one order (C88: what a target depends on is
there before) can be built when it is described in any other.  So everything that is proved about builds holds for it, in
particular C31-C41.  `hpc`: the directory of a canonical path is canonical. -/
theorem C143_sound_partial (hE : E.Sane) (hpc : ∀ t, E.canon (parent (E.canon t)) = parent (E.canon t)) {own : MReg}
    {w1 w2 : World} {calls calls' : List CallD} (ho : Orderly E licantReg calls) (hp : calls.Perm calls')
    (hr : ReasonableSeq E lim ⟨licantReg, own⟩ calls) (h1 : calls.foldlM (callD E lim) ⟨licantReg, own⟩ = .ok w1)
    (h2 : calls'.foldlM (callD E lim) ⟨licantReg, own⟩ = .ok w2) (P : Proj α) (hreg : P.reg = w2.dflt.reg)
    (hkind : P.kind = w2.dflt.kind) (hpar : ∀ p q, q ∈ P.parents p → IsAnc q p) :
    Sound P E.canon ∧ ∀ n o, Resolves E.canon P.reg n o → AllRegistered E.canon P.reg n := by
  have hw : Wf E.canon licantReg := goodD_licantReg.wf
  have hsame := C143_partial hE (w := ⟨licantReg, own⟩) hw ho hp h1 h2
  -- the other order
  obtain ⟨P1, e1, e2, e3⟩ : ∃ P1 : Proj α, P1.reg = w1.dflt.reg ∧ P1.kind = w1.dflt.kind ∧ P1.parents = P.parents :=
    ⟨⟨w1.dflt.reg, w1.dflt.kind, P.force, P.upd, P.cmd, P.parents⟩, rfl, rfl, rfl⟩
  have hd1 := ReasonableSeq.described (.new own) hr h1
  obtain ⟨hS, hall⟩ := C88_wellformed hE hd1 P1 e1 e2 (by rw [e3]; exact hpar)
  have hm : ∀ n, (⟨P.reg, P.kind⟩ : MReg).means E.canon n = (⟨P1.reg, P1.kind⟩ : MReg).means E.canon n := by
    rw [e1, e2, hreg, hkind]; exact fun n => (hsame n).symm
  have hm' := fun n => (hm n).symm
  -- this order
  have hj : J (ho.ctx hE True fun _ => (K.licantReg (E := E) (T := fun _ => True)).cons) (fun _ _ => False) (fun _ => False)
      (fun _ => False) licantReg :=
    ⟨fun n o h => hw n o (Or.inl h), fun _ _ h => h.elim, fun _ h => h.elim, fun _ h => h.elim, fun _ _ h => h.elim,
      fun _ _ h => h.elim, fun _ h => h.elim, fun _ _ _ _ => Or.inl rfl,
      by rintro q p (h | ⟨_, h⟩) <;> exact h.elim, fun _ => K.licantReg⟩
  have hmem : ∀ {cl : CallD}, cl ∈ calls' → cl ∈ calls := fun h => hp.mem_iff.2 h
  have j2 := J.calls hE calls' ⟨licantReg, own⟩ w2 _ _ _ hj (fun cl hc n v h => ⟨cl, hmem hc, h⟩)
    (fun cl hc r h => ⟨cl, hmem hc, h⟩) (fun cl hc q h => ⟨cl, hmem hc, h⟩) (fun cl hc => ho.nostar cl (hmem hc))
    (fun dir hc => ho.makedir dir (hmem hc)) h2
  have k2 := j2.more trivial
  have hcons : Consistent P.reg := by rw [hreg]; exact k2.cons
  -- a target is determined by its attributes
  have huniq : ∀ {a b : Nat}, Registered P.reg a → Registered P.reg b → P.reg.obj a = P.reg.obj b → a = b := by
    rintro a b ⟨n, hn⟩ ⟨m, hb⟩ he
    have h3 := hcons n a hn
    have h4 := hcons m b hb
    rw [he, h4] at h3
    exact (Option.some.inj h3).symm
  have hres : ∀ {n : String} {o : Nat}, Resolves E.canon P.reg n o → Registered P.reg o := by
    rintro n o (h | ⟨_, h⟩)
    · exact ⟨n, h⟩
    · exact ⟨_, h⟩
  have htwin : ∀ {o : Nat}, Registered P.reg o → ∃ o1, Twin E.canon P P1 o o1 := by
    rintro o ⟨n, hn⟩
    obtain ⟨o1, _, h⟩ := twin_of hm (Or.inl hn)
    exact ⟨o1, h⟩
  have htrans : ∀ {a b : Nat}, TransGen (ObjDep E.canon P.reg) a b → ∀ {a1 : Nat}, Twin E.canon P P1 a a1 →
      ∃ b1, TransGen (ObjDep E.canon P1.reg) a1 b1 ∧ Twin E.canon P P1 b b1 := by
    intro a b h
    induction h with
    | single h =>
      intro a1 ht
      obtain ⟨b1, h3, h4⟩ := ht.dep hm h
      exact ⟨b1, .single h3, h4⟩
    | tail _ h ih =>
      intro a1 ht
      obtain ⟨c1, h3, h4⟩ := ih ht
      obtain ⟨b1, h5, h6⟩ := h4.dep hm h
      exact ⟨b1, h3.tail h5, h6⟩
  have htrans' : ∀ {a1 b1 : Nat}, TransGen (ObjDep E.canon P1.reg) a1 b1 → ∀ {a : Nat}, Twin E.canon P P1 a a1 →
      ∃ b, TransGen (ObjDep E.canon P.reg) a b ∧ Twin E.canon P P1 b b1 := by
    intro a1 b1 h
    induction h with
    | single h =>
      intro a ht
      obtain ⟨b, h3, h4⟩ := ht.symm.dep hm' h
      exact ⟨b, .single h3, h4.symm⟩
    | tail _ h ih =>
      intro a ht
      obtain ⟨c, h3, h4⟩ := ih ht
      obtain ⟨b, h5, h6⟩ := h4.symm.dep hm' h
      exact ⟨b, h3.tail h5, h6.symm⟩
  have hcons1 := hS.consistent
  have huniq1 : ∀ {a b : Nat}, Registered P1.reg a → Registered P1.reg b → P1.reg.obj a = P1.reg.obj b → a = b := by
    rintro a b ⟨n, hn⟩ ⟨m, hb⟩ he
    have h3 := hcons1 n a hn
    have h4 := hcons1 m b hb
    rw [he, h4] at h3
    exact (Option.some.inj h3).symm
  have hreg1 : ∀ {a a1 : Nat}, Twin E.canon P P1 a a1 → Registered P.reg a ∧ Registered P1.reg a1 := by
    rintro a a1 ⟨_, _, n, h3, h4⟩
    refine ⟨hres h3, ?_⟩
    rcases h4 with h | ⟨_, h⟩ <;> exact ⟨_, h⟩
  refine ⟨⟨?_, hcons, ?_, ?_, ?_, ?_, ?_⟩, ?_⟩
  · rw [hreg]; exact k2.nodup
  · intro o hcyc
    obtain ⟨a, _, d, _, hd⟩ := TransGen.tail'_iff.1 hcyc
    obtain ⟨o1, ht⟩ := htwin (hres hd)
    obtain ⟨b1, h3, h4⟩ := htrans hcyc ht
    have : b1 = o1 := huniq1 (hreg1 h4).2 (hreg1 ht).2 (by rw [← h4.1, ← ht.1])
    subst this
    exact hS.acyclic _ h3
  · intro o ho hk
    obtain ⟨o1, ht⟩ := htwin ho
    rw [ht.1]
    exact hS.upd o1 (hreg1 ht).2 (by rw [← ht.2.1]; exact hk)
  · rintro o o' hk ⟨d, hd, hd'⟩
    rw [hkind] at hk ⊢
    rw [hreg] at hd hd'
    obtain ⟨q, h3, h4, h5⟩ := k2.obs o hk
    rw [h3] at hd
    simp only [plain, makeObj] at hd
    split at hd
    · cases hd
    · rename_i hx
      rw [List.mem_singleton] at hd
      subst hd
      have hx : E.ex (parent q) = false := by simpa using hx
      have hc : E.canon (parent q) = parent q := by
        have := hpc q
        rwa [h4] at this
      have hT := h5 (parent q) ⟨0, hx, hc.symm⟩
      have hv := j2.dir _ hT
      unfold val at hv
      rw [Option.map_eq_some_iff] at hv
      obtain ⟨b, hb, hv⟩ := hv
      simp only [Prod.mk.injEq] at hv
      have : o' = b := by
        rcases hd' with h | ⟨h, _⟩
        · rw [hb] at h; exact (Option.some.inj h).symm
        · rw [hb] at h; cases h
      rw [this]; exact hv.2
  · rintro o o' hk hd
    have hk2 : w2.dflt.kind o = .file ∨ w2.dflt.kind o = .fileset := by rw [← hkind]; exact hk
    obtain ⟨n, hn⟩ := k2.regd o hk2
    unfold val at hn
    rw [Option.map_eq_some_iff] at hn
    obtain ⟨b, hb, hn⟩ := hn
    simp only [Prod.mk.injEq] at hn
    have hbr : Registered P.reg b := ⟨n, by rw [hreg]; exact hb⟩
    obtain ⟨b1, ht⟩ := htwin hbr
    have hdb : ObjDep E.canon P.reg b o' := by
      obtain ⟨d, h3, h4⟩ := hd
      refine ⟨d, ?_, h4⟩
      rw [hreg] at h3 ⊢
      rw [hn.1]; exact h3
    obtain ⟨o1, h3, h4⟩ := ht.dep hm hdb
    rw [h4.2.1]
    refine hS.fileDeps b1 o1 ?_ h3
    rw [← ht.2.1, hkind, hn.2]; exact hk2
  · intro b a hb hkb ha hpa
    obtain ⟨b1, htb⟩ := htwin hb
    obtain ⟨a1, hta⟩ := htwin ha
    have := hS.ancestors b1 a1 (hreg1 htb).2 (by rw [← htb.2.1]; exact hkb) (hreg1 hta).2 (by
      rw [e3, Proj.path, Proj.path, ← htb.1, ← hta.1]; exact hpa)
    rw [← hta.2.1] at this
    rcases this with h | h | ⟨h, h3⟩
    · exact Or.inl h
    · exact Or.inr (Or.inl h)
    · refine Or.inr (Or.inr ⟨h, ?_⟩)
      obtain ⟨a', h4, h5⟩ := htrans' h3 htb
      have : a' = a := huniq (hreg1 h5).1 ha (by rw [h5.1, hta.1])
      rwa [this] at h4
  · intro n o hno d hd
    obtain ⟨o1, h3, _⟩ := twin_of hm hno
    have hd1 : ReflTransGen (NameDep E.canon P1.reg) n d := by
      refine ReflTransGen.mono ?_ _ _ hd
      rintro x y ⟨a, h4, h5⟩
      obtain ⟨a1, h6, h7⟩ := twin_of hm h4
      exact ⟨a1, h6, by rw [← h7.1]; exact h5⟩
    obtain ⟨b1, hb1⟩ := hall n o1 h3 d hd1
    obtain ⟨b, hb, _⟩ := twin_of hm' hb1
    exact ⟨b, hb⟩

/-! ### the violation -/

/-- core.py:238-240 and make.py:211-221: the existing dependency `r` of a target is registered. -/
def withSource (E : Env) (c : MReg) (r : String) : MReg :=
  if (c.has E.canon r).2 = true then (c.has E.canon r).1 else c.add (plain E (E.canon r)) .source

/-- a file made from one existing file, in an existing directory -/
theorem makefileG_one (hE : E.Sane) {k : Nat} {w : World} {t r : String} (ht : E.ex (parent (E.canon t)) = true)
    (hr : E.ex r = true) (hstar : '*' ∉ r.toList) :
    makefileG E (k + 2) w t [r] false = .ok ⟨(withSource E w.dflt r).add (madeFrom E t [r]) .file, w.own⟩ := by
  unfold withSource
  have hg : globs E [r] = [r] := globs_id (by simpa using hstar)
  have hg0 : globs E [] = [] := rfl
  have hp := hE.exParent r hr
  have hm : makeObj (E.canon t) [r] = madeFrom E t [r] := by simp [madeFrom, hg, dirDep, ht]
  have hpl : makeObj (E.canon r) [] = plain E (E.canon r) := by simp [plain, hp]
  cases hh : (w.dflt.has E.canon r).2 with
  | true =>
    simp [makefileG, fileInit, ht, hg, hr, hh, bind, Except.bind, pure, Except.pure, World.addTo, hm]
  | false =>
    have he := (has_false hh).1
    simp [makefileG, fileInit, ht, hg, hr, hh, he, hp, bind, Except.bind, pure, Except.pure, World.addTo, hm, hg0, hpl]

theorem lt_withSource (hlt : ∀ n o, c.reg.targets.get n = some o → o < c.reg.next) (r : String) :
    ∀ n o, (withSource E c r).reg.targets.get n = some o → o < (withSource E c r).reg.next := by
  unfold withSource
  split
  · exact lt_has hlt r
  · exact lt_add hlt _ _

theorem val_withSource (hlt : ∀ n o, c.reg.targets.get n = some o → o < c.reg.next) {r n : String} (hn : n ≠ r)
    (hn' : n ≠ E.canon r) : val (withSource E c r) n = val c n := by
  unfold withSource
  split
  · exact (val_has r n).resolve_right fun h => hn h.1
  · rw [val_add hlt, if_neg (by exact hn')]

/-- C143 is false of the code.  The file `p` is made from `d`, and `t1` and `t2` from `p`; `p` exists, for instance from an
earlier build, and is given by a path that is not canonical.  If `t1` and `t2` are described first, `p` stands for a source,
so they no longer follow the changes of `d`; if `p` is described first, it stands for the file made from `d`. -/
theorem C143_violated (hE : E.Sane) {own : MReg} {p d t1 t2 : String} (hp : E.ex p = true) (hd : E.ex d = true)
    (hcp : E.canon p ≠ p) (hdp : d ≠ p) (hlp : p ∉ licantNames) (hlp' : E.canon p ∉ licantNames)
    (ht1 : E.ex (parent (E.canon t1)) = true) (ht2 : E.ex (parent (E.canon t2)) = true) (hc1 : E.canon t1 ≠ E.canon p)
    (hsp : '*' ∉ p.toList) (hsd : '*' ∉ d.toList) (k : Nat) :
    ∃ w1 w2, [CallD.makefile t1 [p], .makefile t2 [p], .makefile p [d]].foldlM (callD E (k + 2)) ⟨licantReg, own⟩ = .ok w1 ∧
      [CallD.makefile p [d], .makefile t1 [p], .makefile t2 [p]].foldlM (callD E (k + 2)) ⟨licantReg, own⟩ = .ok w2 ∧
      w1.dflt.means E.canon p = some (plain E (E.canon p), .source) ∧
      w2.dflt.means E.canon p = some (madeFrom E p [d], .file) := by
  have hpp := hE.exParent p hp
  have hcan : ∀ x, p ≠ E.canon x := by
    rintro x e
    exact hcp (by rw [e, hE.idem])
  have hlt0 : ∀ n o, licantReg.reg.targets.get n = some o → o < licantReg.reg.next := fun n o h => (licantReg_get h).1
  have hv0 : ∀ n, n ∉ licantNames → val licantReg n = none := by
    intro n hn
    rw [val_none]
    cases hg : licantReg.reg.targets.get n with
    | none => rfl
    | some o => exact absurd (licantReg_get hg).2.2 hn
  have hfound : ∀ c : MReg, val c p ≠ none ∨ val c (E.canon p) ≠ none → (c.has E.canon p).2 = true := by
    intro c hc
    by_contra hf
    obtain ⟨_, h1, h2⟩ := has_false (by simpa using hf)
    rw [Ne, Ne, val_none, val_none] at hc
    exact hc.elim (· h1) (· h2)
  have hlook : ∀ c : MReg, val c p = none → ∀ v, val c (E.canon p) = some v → val (c.has E.canon p).1 p = some v := by
    intro c h1 v h2
    rcases val_has (E := E) (c := c) p p with e | ⟨_, _, e⟩
    · exfalso
      have : (c.has E.canon p).1.reg.targets.get p ≠ none := by
        have h1' := val_none.1 h1
        unfold MReg.has Core.has
        cases hg : c.reg.targets.get (E.canon p) with
        | none => rw [val_none.2 hg] at h2; cases h2
        | some o => simp [Dict.has, h1']
      exact this (val_none.1 (e.trans h1))
    · rw [e, h2]
  have hkeep : ∀ c : MReg, val c p ≠ none → val (c.has E.canon p).1 p = val c p := by
    intro c h1
    exact (val_has p p).resolve_right fun h => h1 h.2.1
  have hmf : ∀ t r, (madeFrom E t r).tgt = E.canon t := fun _ _ => rfl
  have hpt : (plain E (E.canon p)).tgt = E.canon p := rfl
  refine ⟨⟨(withSource E ((withSource E ((withSource E licantReg p).add (madeFrom E t1 [p]) .file) p).add
      (madeFrom E t2 [p]) .file) d).add (madeFrom E p [d]) .file, own⟩,
    ⟨(withSource E ((withSource E ((withSource E licantReg d).add (madeFrom E p [d]) .file) p).add
      (madeFrom E t1 [p]) .file) p).add (madeFrom E t2 [p]) .file, own⟩, ?_, ?_, ?_, ?_⟩
  · simp only [List.foldlM_cons, List.foldlM_nil, callD, makefileG_one hE ht1 hp hsp, makefileG_one hE ht2 hp hsp,
      makefileG_one hE hpp hd hsd, bind, Except.bind, pure, Except.pure]
  · simp only [List.foldlM_cons, List.foldlM_nil, callD, makefileG_one hE ht1 hp hsp, makefileG_one hE ht2 hp hsp,
      makefileG_one hE hpp hd hsd, bind, Except.bind, pure, Except.pure]
  · have l1 := lt_add (lt_withSource (E := E) hlt0 p) (madeFrom E t1 [p]) .file
    have l2 := lt_add (lt_withSource (E := E) l1 p) (madeFrom E t2 [p]) .file
    have l3 := lt_withSource (E := E) l2 d
    have hno : ¬ (licantReg.has E.canon p).2 = true := by
      intro h
      obtain ⟨o, h | ⟨_, h⟩⟩ := has_true.1 h
      · exact hlp (licantReg_get h).2.2
      · exact hlp' (licantReg_get h).2.2
    have e1 : ∀ n, val ((withSource E licantReg p).add (madeFrom E t1 [p]) .file) n =
        if n = E.canon t1 then some (madeFrom E t1 [p], .file) else
        if n = E.canon p then some (plain E (E.canon p), .source) else val licantReg n := by
      intro n
      rw [val_add (lt_withSource hlt0 p), hmf]
      unfold withSource
      rw [if_neg hno, val_add hlt0, hpt]
    have a1 := e1 p
    rw [if_neg (hcan t1), if_neg (Ne.symm hcp), hv0 p hlp] at a1
    have a2 := e1 (E.canon p)
    rw [if_neg (Ne.symm hc1), if_pos rfl] at a2
    have a3 := hlook _ a1 _ a2
    have a4 := hfound _ (Or.inr (by rw [a2]; simp))
    have a5 : val (withSource E ((withSource E licantReg p).add (madeFrom E t1 [p]) .file) p) p =
        some (plain E (E.canon p), .source) := by
      rw [withSource, if_pos a4]; exact a3
    rw [means_val, val_add l3, hmf, if_neg (Ne.symm hcp), val_withSource l2 (Ne.symm hdp) (hcan d),
      val_add (lt_withSource l1 p), hmf, if_neg (hcan t2), a5]
  · have l1 := lt_add (lt_withSource (E := E) hlt0 d) (madeFrom E p [d]) .file
    have l2 := lt_add (lt_withSource (E := E) l1 p) (madeFrom E t1 [p]) .file
    have l3 := lt_withSource (E := E) l2 p
    have a1 : val ((withSource E licantReg d).add (madeFrom E p [d]) .file) p = none := by
      rw [val_add (lt_withSource hlt0 d), hmf, if_neg (Ne.symm hcp), val_withSource hlt0 (Ne.symm hdp) (hcan d), hv0 p hlp]
    have a2 : val ((withSource E licantReg d).add (madeFrom E p [d]) .file) (E.canon p) = some (madeFrom E p [d], .file) := by
      rw [val_add (lt_withSource hlt0 d), hmf, if_pos rfl]
    have a3 := hlook _ a1 _ a2
    have a4 := hfound _ (Or.inr (by rw [a2]; simp))
    have a5 : val ((withSource E ((withSource E licantReg d).add (madeFrom E p [d]) .file) p).add (madeFrom E t1 [p]) .file) p =
        some (madeFrom E p [d], .file) := by
      rw [val_add (lt_withSource l1 p), hmf, if_neg (hcan t1), withSource, if_pos a4]; exact a3
    have a6 := hfound _ (Or.inl (by rw [a5]; simp))
    rw [means_val, val_add l3, hmf, if_neg (hcan t2), withSource, if_pos a6, hkeep _ (by rw [a5]; simp), a5]

/-! ### examples -/

theorem normpath_idem (p : Path.Str) : Path.normpath (Path.normpath p) = Path.normpath p := by
  rcases Path.normpath_eq p with ⟨h, _, _⟩ | ⟨h, h0⟩
  · rw [h]; decide
  · have hn := Path.reduced_normal p
    rw [Path.isabs_iff] at hn
    have h1 := Path.initialSlashes_render (Path.initialSlashes_le p) (Path.reduced_normal p).mem
    have h2 := Path.reduced_render (Path.initialSlashes_le p) hn
    rcases Path.normpath_eq (Path.normpath p) with ⟨h3, h4, h5⟩ | ⟨h3, _⟩
    · exfalso
      rw [h, Path.isabs_iff, h1, ← Path.isabs_iff] at h4
      rw [h, h2] at h5
      rcases h0 with h0 | h0
      · rw [h4] at h0; cases h0
      · exact h0 h5
    · rw [h3, h, h1, h2]

/-- directories are in normal form -/
theorem parent_ne {p q : String} (h : Path.normpath q.toList ≠ q.toList) : parent p ≠ q := by
  rintro rfl
  apply h
  unfold parent
  rw [String.toList_ofList]
  exact normpath_idem _

/-- the directory `/s` with the files `d` and `p`, which is the working directory -/
def ordEnv : Env where
  canon p := if p = "./p" then "/s/p" else if p = "./d" then "/s/d" else p
  ex p := decide (p ∈ [".", "/", "//", "/s", "/s/d", "/s/p", "./p", "./d"])
  home p := p
  glob _ := []

theorem ordEnv_canon {p : String} (h1 : p ≠ "./p") (h2 : p ≠ "./d") : ordEnv.canon p = p := by
  simp [ordEnv, h1, h2]

theorem ordEnv_anc (p : String) (i : Nat) : ordEnv.canon (anc p i) = anc p i := by
  have h : anc p i = parent (parent^[i] p) := Function.iterate_succ_apply' _ _ _
  rw [h]
  exact ordEnv_canon (parent_ne (by decide)) (parent_ne (by decide))

theorem ordEnv_sane : ordEnv.Sane where
  idem p := by
    simp only [ordEnv]
    split
    · decide
    · split
      · decide
      · rfl
  home _ := rfl
  roots p h := by
    rw [← String.ofList_toList (s := p)]
    rcases h with h | h | h <;> rw [h] <;> decide
  exCanon p h := by
    simp only [ordEnv, decide_eq_true_eq, List.mem_cons, List.not_mem_nil, or_false] at h
    rcases h with rfl | rfl | rfl | rfl | rfl | rfl | rfl | rfl <;> decide +kernel
  exCanonAnc p i := by rw [ordEnv_anc]
  exParent p h := by
    simp only [ordEnv, decide_eq_true_eq, List.mem_cons, List.not_mem_nil, or_false] at h
    rcases h with rfl | rfl | rfl | rfl | rfl | rfl | rfl | rfl <;> decide +kernel
  up p i h := by
    rw [← parent_anc]
    generalize anc p i = q at h
    simp only [ordEnv, decide_eq_true_eq, List.mem_cons, List.not_mem_nil, or_false] at h
    rcases h with rfl | rfl | rfl | rfl | rfl | rfl | rfl | rfl <;> decide +kernel
  canonParent p i _ := by rw [ordEnv_anc, ordEnv_anc]; exact parent_anc p i

/-- the world, if the calls returned -/
def okWorld : Except Err World → World
  | .ok w => w
  | .error _ => ⟨noReg, noReg⟩

/-- `makefile("/s/t1", ["./p"])`, `makefile("/s/t2", ["./p"])`, `makefile("./p", ["/s/d"])` -/
def ordLate : World := okWorld ([CallD.makefile "/s/t1" ["./p"], .makefile "/s/t2" ["./p"], .makefile "./p" ["/s/d"]].foldlM
  (callD ordEnv 50) ⟨licantReg, noReg⟩)

/-- the same calls, the last one first -/
def ordEarly : World := okWorld ([CallD.makefile "./p" ["/s/d"], .makefile "/s/t1" ["./p"], .makefile "/s/t2" ["./p"]].foldlM
  (callD ordEnv 50) ⟨licantReg, noReg⟩)

def ordProj (w : World) : Proj Nat := ⟨w.dflt.reg, w.dflt.kind, fun _ => false, fun _ => .ok false, fun _ _ => 7, fun _ => []⟩

/-- C143 is false of the code: a concrete case.  When `/s/d` has been changed after `/s/p` was made from it, `/s/t1` is out of
date in the second order; in the first one it is up to date. -/
theorem C143_violated_witness :
    (∃ w1 w2, [CallD.makefile "/s/t1" ["./p"], .makefile "/s/t2" ["./p"], .makefile "./p" ["/s/d"]].foldlM
        (callD ordEnv 50) ⟨licantReg, noReg⟩ = .ok w1 ∧
      [CallD.makefile "./p" ["/s/d"], .makefile "/s/t1" ["./p"], .makefile "/s/t2" ["./p"]].foldlM
        (callD ordEnv 50) ⟨licantReg, noReg⟩ = .ok w2 ∧
      w1.dflt.means ordEnv.canon "./p" = some (plain ordEnv "/s/p", .source) ∧
      w2.dflt.means ordEnv.canon "./p" = some (madeFrom ordEnv "./p" ["/s/d"], .file)) ∧
    (Resolves ordEnv.canon ordLate.dflt.reg "/s/t1" 5 ∧ Resolves ordEnv.canon ordEarly.dflt.reg "/s/t1" 6) ∧
    ∀ V : String → Info, (∀ p ∈ ["/s/t1", "/s/p", "/s/d"], (V p).exist = true) → (V "/s/d").mtime > (V "/s/p").mtime →
      (V "/s/p").mtime ≤ (V "/s/t1").mtime →
      NeedsWork (ordProj ordEarly) ordEnv.canon V 6 ∧ ¬ NeedsWork (ordProj ordLate) ordEnv.canon V 5 := by
  refine ⟨C143_violated ordEnv_sane (p := "./p") (d := "/s/d") (t1 := "/s/t1") (t2 := "/s/t2") (by decide +kernel)
    (by decide +kernel) (by decide +kernel) (by decide +kernel) (by decide +kernel) (by decide +kernel) (by decide +kernel)
    (by decide +kernel) (by decide +kernel) (by decide +kernel) (by decide +kernel) 48,
    ⟨Or.inl (by decide +kernel), Or.inl (by decide +kernel)⟩, ?_⟩
  intro V hx hd hp
  refine ⟨⟨5, .single ⟨"./p", by decide +kernel, Or.inl (by decide +kernel)⟩, Or.inr (Or.inr ⟨4, .direct
    ⟨"/s/d", by decide +kernel, Or.inl (by decide +kernel)⟩ (Or.inr (by decide +kernel)), hd⟩)⟩, ?_⟩
  have d5 : ∀ a, ObjDep ordEnv.canon (ordProj ordLate).reg 5 a → a = 4 := by
    rintro a ⟨d, h1, h2⟩
    have h1 : d ∈ ["./p"] := by
      have : ((ordProj ordLate).reg.obj 5).deps = ["./p"] := by decide +kernel
      rwa [this] at h1
    rw [List.mem_singleton] at h1
    subst h1
    have hg : (ordProj ordLate).reg.targets.get "./p" = some 4 := by decide +kernel
    rcases h2 with h | ⟨h, _⟩
    · rw [hg] at h; cases h; rfl
    · rw [hg] at h; cases h
  have d4 : ∀ a, ¬ ObjDep ordEnv.canon (ordProj ordLate).reg 4 a := by
    rintro a ⟨d, h1, h2⟩
    have : ((ordProj ordLate).reg.obj 4).deps = [] := by decide +kernel
    rw [this] at h1; cases h1
  have hk5 : (ordProj ordLate).kind 5 = .file := by decide +kernel
  have hk4 : (ordProj ordLate).kind 4 = .source := by decide +kernel
  have hp5 : (ordProj ordLate).path 5 = "/s/t1" := by decide +kernel
  have hp4 : (ordProj ordLate).path 4 = "/s/p" := by decide +kernel
  rintro ⟨a, h1, h2⟩
  have ha : a = 5 ∨ a = 4 := by
    clear h2
    induction h1 with
    | refl => exact Or.inl rfl
    | tail _ hd ih =>
      rcases ih with rfl | rfl
      · exact Or.inr (d5 _ hd)
      · exact absurd hd (d4 _)
  have hi : ∀ {o b : Nat}, InputOf (ordProj ordLate) ordEnv.canon o b → (o = 5 → b = 4) ∧ o ≠ 4 := by
    intro o b h
    cases h with
    | direct h1 _ => exact ⟨by rintro rfl; exact d5 _ h1, by rintro rfl; exact d4 _ h1⟩
    | through h1 h2 _ =>
      refine ⟨?_, by rintro rfl; exact d4 _ h1⟩
      rintro rfl
      rw [d5 _ h1, hk4] at h2; cases h2
  unfold OutOfDate at h2
  rcases ha with rfl | rfl
  · rw [hk5] at h2
    rcases h2 with h | h | ⟨b, h, h'⟩
    · cases h
    · rw [hp5, hx _ (by simp)] at h; cases h
    · rw [(hi h).1 rfl, hp4, hp5] at h'
      omega
  · rw [hk4] at h2
    rcases h2 with h | h | ⟨b, h, h'⟩
    · cases h
    · rw [hp4, hx _ (by simp)] at h; cases h
    · exact (hi h).2 rfl

/-- a description whose order does not matter: `/s/out/t1` is made from `/s/p`, which is made from `d` by a later call -/
def ordCalls : List CallD :=
  [.makefile "/s/out/t1" ["/s/p"], .fileset "all" ["/s/out/t1"] [], .makefile "/s/p" ["./d"], .target "run" ["all"] false "run"]

theorem ordCalls_dir {cl : CallD} (hc : cl ∈ ordCalls) {q : String} (h : cl.Dir ordEnv q) : q = "/s/out" := by
  have hA : ∀ a ∈ ["/s/out", "/s", "/"], parent a ∈ ["/s/out", "/s", "/"] := by decide +kernel
  have hmem : ∀ i, anc "/s/out/t1" i ∈ ["/s/out", "/s", "/"] := anc_mem hA (by decide +kernel)
  have hB : ∀ a ∈ ["/s", "/"], parent a ∈ ["/s", "/"] := by decide +kernel
  have hmem' : ∀ i, anc "/s/p" i ∈ ["/s", "/"] := anc_mem hB (by decide +kernel)
  simp only [ordCalls, List.mem_cons, List.not_mem_nil, or_false] at hc
  rcases hc with rfl | rfl | rfl | rfl <;> rcases h with ⟨p, hp, i, hi, rfl⟩ | ⟨dir, hd, -⟩ <;>
    first | cases hd | skip
  · simp only [CallD.inside, List.mem_singleton] at hp
    subst hp
    rw [ordEnv_anc]
    rw [ordEnv_canon (by decide) (by decide)] at hi ⊢
    have := hmem i
    revert hi this
    generalize anc "/s/out/t1" i = x
    simp only [List.mem_cons, List.not_mem_nil, or_false]
    rintro h (rfl | rfl | rfl)
    · rfl
    · revert h; decide +kernel
    · revert h; decide +kernel
  · cases hp
  · simp only [CallD.inside, List.mem_singleton] at hp
    subst hp
    rw [ordEnv_canon (by decide) (by decide)] at hi
    have := hmem' i
    revert hi this
    generalize anc "/s/p" i = x
    simp only [List.mem_cons, List.not_mem_nil, or_false]
    rintro h (rfl | rfl) <;> (exfalso; revert h; decide +kernel)
  · cases hp

theorem ordCalls_decl {cl : CallD} (hc : cl ∈ ordCalls) {n : String} {v : Obj × Kind} (h : cl.decl ordEnv = some (n, v)) :
    n = "/s/out/t1" ∧ v.2 = .file ∨ n = "all" ∨ n = "/s/p" ∧ v.2 = .file ∨ n = "run" := by
  simp only [ordCalls, List.mem_cons, List.not_mem_nil, or_false] at hc
  rcases hc with rfl | rfl | rfl | rfl <;> simp only [CallD.decl, Option.some.injEq, Prod.mk.injEq] at h <;>
    obtain ⟨rfl, rfl⟩ := h
  · exact Or.inl ⟨by decide +kernel, rfl⟩
  · exact Or.inr (Or.inl rfl)
  · exact Or.inr (Or.inr (Or.inl ⟨by decide +kernel, rfl⟩))
  · exact Or.inr (Or.inr (Or.inr rfl))

theorem ordCalls_sources {cl : CallD} (hc : cl ∈ ordCalls) {r : String} (h : r ∈ cl.sources ordEnv) : r = "/s/p" ∨ r = "./d" := by
  have : ∀ cl ∈ ordCalls, cl.sources ordEnv ⊆ ["/s/p", "./d"] := by
    intro cl hc
    simp only [ordCalls, List.mem_cons, List.not_mem_nil, or_false] at hc
    rcases hc with rfl | rfl | rfl | rfl <;> intro x hx <;> revert x <;> decide +kernel
  simpa using this cl hc h

theorem ordCalls_orderly : Orderly ordEnv licantReg ordCalls where
  once := by
    simp only [ordCalls, List.pairwise_cons, List.mem_cons, List.not_mem_nil, or_false, CallD.decl, Option.some.injEq,
      Prod.mk.injEq]
    refine ⟨?_, ?_, ?_, ?_, ?_⟩
    · rintro cl (rfl | rfl | rfl) n v n' v' ⟨rfl, _⟩ h <;> simp only [Option.some.injEq, Prod.mk.injEq] at h <;>
        obtain ⟨rfl, _⟩ := h <;> decide +kernel
    · rintro cl (rfl | rfl) n v n' v' ⟨rfl, _⟩ h <;> simp only [Option.some.injEq, Prod.mk.injEq] at h <;>
        obtain ⟨rfl, _⟩ := h <;> decide +kernel
    · rintro cl rfl n v n' v' ⟨rfl, _⟩ h
      simp only [Option.some.injEq, Prod.mk.injEq] at h
      obtain ⟨rfl, _⟩ := h
      decide +kernel
    · rintro cl h; cases h
    · exact List.Pairwise.nil
  nodir cl hc cl' hc' q hq := by
    rw [ordCalls_dir hc' hq]
    constructor
    · intro n v h
      rcases ordCalls_decl hc h with ⟨rfl, _⟩ | rfl | ⟨rfl, _⟩ | rfl <;> decide
    · intro r hr
      rcases ordCalls_sources hc hr with rfl | rfl <;> decide +kernel
  spelled cl hc cl' hc' r hr n v hv he := by
    rcases ordCalls_sources hc hr with rfl | rfl
    · exact ⟨by decide +kernel, Or.inr (by decide +kernel)⟩
    · exfalso
      have h1 : ordEnv.canon "./d" = "/s/d" := by decide +kernel
      rw [h1] at he
      rcases ordCalls_decl hc' hv with ⟨rfl, _⟩ | rfl | ⟨rfl, _⟩ | rfl <;> revert he <;> decide
  new cl hc := by
    have hn : ∀ n, n ∉ licantNames → licantReg.reg.targets.get n = none := by
      intro n hn
      cases hg : licantReg.reg.targets.get n with
      | none => rfl
      | some o => exact absurd (licantReg_get hg).2.2 hn
    refine ⟨?_, ?_, ?_⟩
    · intro n v hv
      rcases ordCalls_decl hc hv with ⟨rfl, _⟩ | rfl | ⟨rfl, _⟩ | rfl <;> exact hn _ (by decide)
    · intro r hr
      rcases ordCalls_sources hc hr with rfl | rfl <;> exact ⟨hn _ (by decide), hn _ (by decide +kernel)⟩
    · intro q hq
      rw [ordCalls_dir hc hq]
      exact hn _ (by decide)
  nostar cl hc p hp := by
    have h1 : p = "/s/out/t1" ∨ p = "/s/p" := by
      simp only [ordCalls, List.mem_cons, List.not_mem_nil, or_false] at hc
      rcases hc with rfl | rfl | rfl | rfl <;> simp only [CallD.inside, List.mem_singleton, List.not_mem_nil] at hp
      · exact Or.inl hp
      · exact Or.inr hp
    refine ⟨by rcases h1 with rfl | rfl <;> decide +kernel, fun q hq => ?_⟩
    rw [ordCalls_dir hc (Or.inl ⟨p, hp, hq⟩)]
    decide
  makedir dir h := by simp [ordCalls] at h

/-- the assumptions of `C143_partial`: the calls in another order return, too -/
example : Wf ordEnv.canon licantReg ∧ Orderly ordEnv licantReg ordCalls ∧ ordCalls.Perm ordCalls.reverse ∧
    (∃ w1, ordCalls.foldlM (callD ordEnv 50) ⟨licantReg, noReg⟩ = .ok w1 ∧
      w1.dflt.means ordEnv.canon "./p" = some (madeFrom ordEnv "/s/p" ["./d"], .file)) ∧
    ∃ w2, ordCalls.reverse.foldlM (callD ordEnv 50) ⟨licantReg, noReg⟩ = .ok w2 ∧
      w2.dflt.means ordEnv.canon "./p" = some (madeFrom ordEnv "/s/p" ["./d"], .file) :=
  ⟨goodD_licantReg.wf, ordCalls_orderly, ordCalls.reverse_perm.symm, ⟨_, rfl, rfl⟩, _, rfl, rfl⟩

theorem ReasonableSeq.cons {w : World} {cl : CallD} {calls : List CallD} (h : ReasonableD E lim w.dflt cl)
    (h' : ∀ w1, callD E lim w cl = .ok w1 → ReasonableSeq E lim w1 calls) : ReasonableSeq E lim w (cl :: calls) := by
  intro pre cl' post w' he hf
  cases pre with
  | nil =>
    cases hf
    simp only [List.nil_append, List.cons.injEq] at he
    rw [← he.1]; exact h
  | cons a pre =>
    simp only [List.cons_append, List.cons.injEq] at he
    obtain ⟨rfl, he⟩ := he
    simp only [List.foldlM_cons, bind, Except.bind] at hf
    split at hf
    · cases hf
    · rename_i w1 h1
      exact h' w1 h1 pre cl' post w' he hf

/-- `/s/out/d/b` is made from the existing file `/s/a`, and `/s/out/c` from that -/
def chainCalls : List CallD := [.makefile "/s/out/d/b" ["/s/a"], .makefile "/s/out/c" ["/s/out/d/b"]]

theorem chain_reasonable : ReasonableSeq srcEnv 50 ⟨licantReg, noReg⟩ chainCalls := by
  refine ReasonableSeq.cons ⟨?_, ?_⟩ ?_
  · exact fitsD_src ["/s/out/d", "/s/out", "/s", "/"] (by decide +kernel) (by decide +kernel) (by decide +kernel)
      (by decide +kernel) (by decide +kernel) (by decide +kernel) (by intro b hb; rw [licantReg_kind] at hb; cases hb)
      (by rintro a (h | h) <;> rw [licantReg_kind] at h <;> cases h)
      (by intro a ha o h; have h1 := (licantReg_get h).2.2; exfalso; revert ha h1; simp only [List.mem_cons, List.not_mem_nil, or_false]; rintro (rfl | rfl | rfl | rfl) <;> decide +kernel)
  · intro r hr
    have hgl : globs srcEnv ["/s/a"] = ["/s/a"] := by decide +kernel
    rw [hgl, List.mem_singleton] at hr
    subst hr
    refine ⟨by decide +kernel, Or.inr ⟨by decide +kernel, ?_, (by intro b hb; rw [licantReg_kind] at hb; cases hb), ?_⟩⟩
    · rintro o (h | ⟨_, h⟩) <;> exact absurd (licantReg_get h).2.2 (by decide +kernel)
    rintro q ⟨j, _, rfl⟩ ⟨i, hi⟩
    have hA : ∀ a ∈ ["/s/out/d", "/s/out", "/s", "/"], parent a ∈ ["/s/out/d", "/s/out", "/s", "/"] := by
      decide +kernel
    have h1 := anc_mem hA (p := "/s/out/d/b") (by decide +kernel) j
    have h2 := anc_mem hA (hA _ h1) i
    change "/s/a" = anc (anc "/s/out/d/b" j) i at hi
    rw [← hi] at h2
    revert h2; decide +kernel
  · intro w1 h1
    have : callD srcEnv 50 ⟨licantReg, noReg⟩ (.makefile "/s/out/d/b" ["/s/a"]) = .ok ⟨dfltDemo, noReg⟩ := rfl
    rw [this] at h1
    cases h1
    refine ReasonableSeq.cons ⟨dfltDemo_fits, ?_⟩ ?_
    · intro r hr
      have hgl : globs srcEnv ["/s/out/d/b"] = ["/s/out/d/b"] := by decide +kernel
      rw [hgl, List.mem_singleton] at hr
      subst hr
      exact ⟨by decide +kernel, Or.inl ⟨7, Or.inl (by decide +kernel), by decide +kernel⟩⟩
    · intro w2 _ pre cl post w' he
      simp at he

theorem chain_dir {cl : CallD} (hc : cl ∈ chainCalls) {q : String} (h : cl.Dir srcEnv q) : q = "/s/out" ∨ q = "/s/out/d" := by
  have hA : ∀ a ∈ ["/s/out/d", "/s/out", "/s", "/"], parent a ∈ ["/s/out/d", "/s/out", "/s", "/"] := by decide +kernel
  simp only [chainCalls, List.mem_cons, List.not_mem_nil, or_false] at hc
  have hmem : ∀ p ∈ cl.inside srcEnv, ∀ i, anc (srcEnv.canon p) i ∈ ["/s/out/d", "/s/out", "/s", "/"] := by
    rcases hc with rfl | rfl
    · intro p hp i
      simp only [CallD.inside, List.mem_singleton] at hp
      subst hp
      exact anc_mem hA (by decide +kernel) i
    · intro p hp i
      simp only [CallD.inside, List.mem_singleton] at hp
      subst hp
      exact anc_mem hA (by decide +kernel) i
  have hd : ∀ dir, cl ≠ .makedir dir := by rcases hc with rfl | rfl <;> intro dir h <;> cases h
  rcases h with ⟨p, hp, i, hi, rfl⟩ | ⟨dir, h, -⟩
  · have := hmem p hp i
    revert hi this
    show srcEnv.ex (anc (srcEnv.canon p) i) = false → _ → anc (srcEnv.canon p) i = _ ∨ anc (srcEnv.canon p) i = _
    generalize anc (srcEnv.canon p) i = x
    simp only [List.mem_cons, List.not_mem_nil, or_false]
    rintro h (rfl | rfl | rfl | rfl)
    · exact Or.inr rfl
    · exact Or.inl rfl
    · revert h; decide +kernel
    · revert h; decide +kernel
  · exact absurd h (hd dir)

theorem chain_decl {cl : CallD} (hc : cl ∈ chainCalls) {n : String} {v : Obj × Kind} (h : cl.decl srcEnv = some (n, v)) :
    n = "/s/out/d/b" ∨ n = "/s/out/c" := by
  simp only [chainCalls, List.mem_cons, List.not_mem_nil, or_false] at hc
  rcases hc with rfl | rfl <;> simp only [CallD.decl, Option.some.injEq, Prod.mk.injEq] at h <;> obtain ⟨rfl, rfl⟩ := h
  · exact Or.inl rfl
  · exact Or.inr rfl

theorem chain_sources {cl : CallD} (hc : cl ∈ chainCalls) {r : String} (h : r ∈ cl.sources srcEnv) : r = "/s/a" := by
  have : ∀ cl ∈ chainCalls, cl.sources srcEnv ⊆ ["/s/a"] := by
    intro cl hc
    simp only [chainCalls, List.mem_cons, List.not_mem_nil, or_false] at hc
    rcases hc with rfl | rfl <;> intro x hx <;> revert x <;> decide +kernel
  simpa using this cl hc h

theorem chain_orderly : Orderly srcEnv licantReg chainCalls where
  once := by
    simp only [chainCalls, List.pairwise_cons, List.mem_cons, List.not_mem_nil, or_false, CallD.decl, Option.some.injEq,
      Prod.mk.injEq]
    refine ⟨?_, ?_, List.Pairwise.nil⟩
    · rintro cl rfl n v n' v' ⟨rfl, _⟩ h
      simp only [Option.some.injEq, Prod.mk.injEq] at h
      obtain ⟨rfl, _⟩ := h
      decide +kernel
    · rintro cl h; cases h
  nodir cl hc cl' hc' q hq := by
    have := chain_dir hc' hq
    constructor
    · intro n v h
      rcases chain_decl hc h with rfl | rfl <;> rcases this with rfl | rfl <;> decide
    · intro r hr
      rw [chain_sources hc hr]
      rcases this with rfl | rfl <;> decide +kernel
  spelled cl hc cl' hc' r hr n v hv he := by
    exfalso
    rw [chain_sources hc hr] at he
    rcases chain_decl hc' hv with rfl | rfl <;> revert he <;> decide +kernel
  new cl hc := by
    have hn : ∀ n, n ∉ licantNames → licantReg.reg.targets.get n = none := by
      intro n hn
      cases hg : licantReg.reg.targets.get n with
      | none => rfl
      | some o => exact absurd (licantReg_get hg).2.2 hn
    refine ⟨?_, ?_, ?_⟩
    · intro n v hv
      rcases chain_decl hc hv with rfl | rfl <;> exact hn _ (by decide)
    · intro r hr
      rw [chain_sources hc hr]
      exact ⟨hn _ (by decide), hn _ (by decide +kernel)⟩
    · intro q hq
      rcases chain_dir hc hq with rfl | rfl <;> exact hn _ (by decide)
  nostar cl hc p hp := by
    have h1 : p = "/s/out/d/b" ∨ p = "/s/out/c" := by
      simp only [chainCalls, List.mem_cons, List.not_mem_nil, or_false] at hc
      rcases hc with rfl | rfl <;> simp only [CallD.inside, List.mem_singleton] at hp
      · exact Or.inl hp
      · exact Or.inr hp
    refine ⟨by rcases h1 with rfl | rfl <;> decide +kernel, fun q hq => ?_⟩
    rcases chain_dir hc (Or.inl ⟨p, hp, hq⟩) with rfl | rfl <;> decide
  makedir dir h := by simp [chainCalls] at h

/-- the assumptions of `C143_sound_partial`; described in the other order, `/s/out/c` depends on a target that is not there
yet, so that description is not one of C88 -/
example : (∀ t, srcEnv.canon (parent (srcEnv.canon t)) = parent (srcEnv.canon t)) ∧ Orderly srcEnv licantReg chainCalls ∧
    chainCalls.Perm chainCalls.reverse ∧ ReasonableSeq srcEnv 50 ⟨licantReg, noReg⟩ chainCalls ∧
    (∃ w1, chainCalls.foldlM (callD srcEnv 50) ⟨licantReg, noReg⟩ = .ok w1) ∧
    (∃ w2, chainCalls.reverse.foldlM (callD srcEnv 50) ⟨licantReg, noReg⟩ = .ok w2 ∧
      dependsAsSet srcEnv.canon w2.dflt.reg 50 [] "/s/out/c" false =
        .ok (["/s/a", "/s/out", "/s/out/d", "/s/out/d/b"], [(.plain "/s/out/c", ["/s/a", "/s/out", "/s/out/d", "/s/out/d/b"])])) ∧
    ¬ ReasonableD srcEnv 50 licantReg (.makefile "/s/out/c" ["/s/out/d/b"]) := by
  refine ⟨fun _ => rfl, chain_orderly, chainCalls.reverse_perm.symm, chain_reasonable, ⟨_, rfl⟩,
    ⟨_, rfl, by decide +kernel⟩, ?_⟩
  rintro ⟨_, h⟩
  rcases (h "/s/out/d/b" (by decide +kernel)).2 with ⟨o, h1, _⟩ | ⟨h1, _⟩
  · rcases h1 with h1 | ⟨_, h1⟩ <;> exact absurd (licantReg_get h1).2.2 (by decide +kernel)
  · revert h1; decide +kernel

end Licant.Make
