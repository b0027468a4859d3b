/-
What the registration functions with the default core (`source`, and file targets with `use_dirkeep=True`) leave as it
was.  Used for the targets of C++ modules.
-/
import Verif.Make.Wellformed

set_option autoImplicit false

namespace Licant.Make
open Licant.Py Licant.Core

variable {E : Env}

/-- a target at the canonical path `q` that depends on nothing but its directory, if that is missing -/
def plain (E : Env) (q : String) : Obj := makeObj q (if E.ex (parent q) then [] else [parent q])

/-- From `c` to `c'` only names whose canonical path satisfies `D` can have got another meaning; new targets satisfy `T`;
names have got a meaning only by new targets with their canonical path. -/
structure Keeps (canon : String → String) (c c' : MReg) (D : String → Prop) (T : Obj → Kind → Prop) : Prop where
  next : c.reg.next ≤ c'.reg.next
  obj : ∀ o, o < c.reg.next → c'.reg.obj o = c.reg.obj o ∧ c'.kind o = c.kind o
  keep : ∀ n o, Resolves canon c.reg n o → ¬ D (canon n) → Resolves canon c'.reg n o
  fresh : ∀ o, c.reg.next ≤ o → o < c'.reg.next → T (c'.reg.obj o) (c'.kind o)
  new : ∀ n o, Resolves canon c'.reg n o → Resolves canon c.reg n o ∨
    c.reg.next ≤ o ∧ o < c'.reg.next ∧ (c'.reg.obj o).tgt = canon n

theorem Keeps.refl {canon : String → String} (c : MReg) (D : String → Prop) (T : Obj → Kind → Prop) :
    Keeps canon c c D T :=
  ⟨le_refl _, fun _ _ => ⟨rfl, rfl⟩, fun _ _ h _ => h, fun _ _ _ => by omega, fun _ _ h => Or.inl h⟩

theorem Keeps.mono {canon : String → String} {c c' : MReg} {D D' : String → Prop} {T T' : Obj → Kind → Prop}
    (h : Keeps canon c c' D T) (hD : ∀ q, D q → D' q) (hT : ∀ ob k, T ob k → T' ob k) : Keeps canon c c' D' T' :=
  ⟨h.next, h.obj, fun n o hr hn => h.keep n o hr fun hd => hn (hD _ hd), fun o h1 h2 => hT _ _ (h.fresh o h1 h2), h.new⟩

theorem Keeps.trans {canon : String → String} {a b c : MReg} {D : String → Prop} {T : Obj → Kind → Prop}
    (h : Keeps canon a b D T) (h' : Keeps canon b c D T) : Keeps canon a c D T := by
  refine ⟨le_trans h.next h'.next, fun o ho => ?_, fun n o hr hn => h'.keep n o (h.keep n o hr hn) hn,
    fun o h1 h2 => ?_, fun n o hr => ?_⟩
  · obtain ⟨h1, h2⟩ := h.obj o ho
    obtain ⟨h3, h4⟩ := h'.obj o (lt_of_lt_of_le ho h.next)
    exact ⟨h3.trans h1, h4.trans h2⟩
  · by_cases hb : o < b.reg.next
    · obtain ⟨h3, h4⟩ := h'.obj o hb
      rw [h3, h4]
      exact h.fresh o h1 hb
    · exact h'.fresh o (by omega) h2
  · rcases h'.new n o hr with hr | ⟨h1, h2, h3⟩
    · rcases h.new n o hr with hr | ⟨h1, h2, h3⟩
      · exact Or.inl hr
      · exact Or.inr ⟨h1, lt_of_lt_of_le h2 h'.next, by rw [(h'.obj o h2).1]; exact h3⟩
    · exact Or.inr ⟨le_trans h.next h1, h2, h3⟩

theorem Keeps.wf {canon : String → String} {c c' : MReg} {D : String → Prop} {T : Obj → Kind → Prop}
    (h : Keeps canon c c' D T) (hwf : Wf canon c) : Wf canon c' := by
  intro n o hr
  rcases h.new n o hr with hr | ⟨_, h2, _⟩
  · exact lt_of_lt_of_le (hwf n o hr) h.next
  · exact h2

theorem keeps_has (hi : Idempotent E.canon) (c : MReg) (n : String) (D : String → Prop) (T : Obj → Kind → Prop) :
    Keeps E.canon c (c.has E.canon n).1 D T := by
  obtain ⟨hx, h1, h2, h3, h4⟩ := has_extends hi c n
  exact ⟨hx.next, hx.obj, fun m o h _ => (h4 m o).2 h, fun o h5 h6 => by omega, fun m o h => Or.inl ((h4 m o).1 h)⟩

theorem keeps_add {canon : String → String} (c : MReg) {ob : Obj} (k : Kind) (ht : canon ob.tgt = ob.tgt) :
    Keeps canon c (c.add ob k) (· = ob.tgt) (fun x y => x = ob ∧ y = k) := by
  refine ⟨by simp [MReg.add, Core.add], fun o ho => ?_, fun n o h hn => (add_resolves ht hn).2 h, fun o h1 h2 => ?_,
    fun n o h => ?_⟩
  · have : o ≠ c.reg.next := by omega
    simp [MReg.add, Core.add, this]
  · have : o = c.reg.next := by simp only [MReg.add, Core.add] at h2; omega
    subst this
    simp [MReg.add, Core.add]
  · rcases add_new ht h with h | ⟨rfl, hn⟩
    · exact Or.inl h
    · exact Or.inr ⟨le_refl _, by simp [MReg.add, Core.add], by simp [MReg.add, Core.add, hn]⟩

/-- adding under a canonical path that is free keeps everything -/
theorem keeps_add_free {canon : String → String} (c : MReg) {ob : Obj} (k : Kind) (ht : canon ob.tgt = ob.tgt)
    (hf : c.reg.targets.get ob.tgt = none) : Keeps canon c (c.add ob k) (fun _ => False) (fun x y => x = ob ∧ y = k) := by
  have h := keeps_add c k ht
  exact ⟨h.next, h.obj, fun n o hr _ => (add_extends ht hf).names n o hr, h.fresh, h.new⟩

/-- the ancestors of the canonical path of a missing directory are the canonical paths of its ancestors -/
theorem canon_anc (hE : E.Sane) {t : String} {k : Nat} (h : ∀ j < k, E.ex (anc t j) = false) :
    parent^[k] (E.canon (anc t 0)) = E.canon (anc t k) := by
  induction k with
  | zero => rfl
  | succ k ih =>
    rw [Function.iterate_succ_apply', ih fun j hj => h j (by omega), hE.canonParent t k (h k (by omega))]

/-- the ancestors of the canonical path of a missing directory -/
theorem anc_canon_parent (hE : E.Sane) {t : String} {i : Nat} (hm : E.ex (parent t) = false)
    (hi : E.ex (anc (E.canon (parent t)) i) = false) :
    E.ex (anc t (i + 1)) = false ∧ anc (E.canon (parent t)) i = E.canon (anc t (i + 1)) := by
  have key := fun k => canon_anc hE (t := t) (k := k)
  have hmiss : ∀ j ≤ i + 1, E.ex (anc t j) = false := by
    intro j
    induction j using Nat.strong_induction_on with
    | _ j ih =>
      intro hj
      cases j with
      | zero => exact hm
      | succ j =>
        have h1 := key (j + 1) fun k hk => ih k (by omega) (by omega)
        have h2 : anc (E.canon (parent t)) j = E.canon (anc t (j + 1)) := h1
        have h3 := missing_anc hE hi j (by omega)
        rw [h2, hE.exCanonAnc] at h3
        exact h3
  exact ⟨hmiss (i + 1) (le_refl _), key (i + 1) fun j hj => hmiss j (by omega)⟩

/-- the missing directories above the missing directory of `t` are missing directories above `t` -/
theorem missingDir_parent (hE : E.Sane) {t q : String} (hm : E.ex (parent t) = false)
    (h : MissingDir E (E.canon (parent t)) q) : MissingDir E t q := by
  obtain ⟨i, hi, rfl⟩ := h
  obtain ⟨h1, h2⟩ := anc_canon_parent hE hm hi
  exact ⟨i + 1, h1, by rw [h2, hE.idem]⟩

/-- there are no patterns in the path and in the directories that have to be made for it -/
def NoStar (E : Env) (p : String) : Prop :=
  '*' ∉ (E.canon p).toList ∧ ∀ q, MissingDir E (E.canon p) q → '*' ∉ q.toList

/-- the directory that `fileInit` adds to the dependencies -/
def dirDep (E : Env) (u : Bool) (t : String) : List String := if u && !E.ex (parent t) then [parent t] else []

/-- registering the existing dependencies as sources -/
theorem keeps_sources (hE : E.Sane) {fuel : Nat} : ∀ (l : List String) (d d' : MReg) (T : Obj → Kind → Prop),
    (∀ r ∈ l, E.ex r = true → T (plain E (E.canon r)) .source) →
    l.foldlM (fun d r =>
        if E.ex r then
          let h := d.has E.canon r
          if h.2 then .ok h.1
          else match fileInit E fuel h.1 r [] true with
            | .error e => .error e
            | .ok (d, t, ds) => .ok (d.add (makeObj t ds) .source)
        else .ok d) d = (Except.ok d' : Except Err MReg) →
    Keeps E.canon d d' (fun _ => False) T := by
  intro l
  induction l with
  | nil => intro d d' T _ h; cases h; exact .refl _ _ _
  | cons r l ih =>
    intro d d' T hT h
    simp only [List.foldlM_cons, bind, Except.bind] at h
    split at h
    · cases h
    · rename_i d1 h1
      refine Keeps.trans (b := d1) ?_ (ih d1 d' T (fun x hx => hT x (by simp [hx])) h)
      split at h1
      · rename_i hx
        split at h1
        · cases h1; exact keeps_has hE.idem d r _ _
        · rename_i hh
          obtain ⟨he, _, hf⟩ := has_false (by simpa using hh)
          rw [he] at h1
          cases fuel with
          | zero => simp only [fileInit] at h1; cases h1
          | succ fuel =>
            simp only [fileInit, hE.exParent r hx, Bool.not_true, Bool.and_false, Bool.false_eq_true, if_false, globs,
              List.flatMap_nil, List.foldlM_nil, pure, Except.pure] at h1
            cases h1
            refine (keeps_add_free d _ (by exact hE.idem r) hf).mono (fun _ h => h) ?_
            rintro ob k ⟨rfl, rfl⟩
            have := hT r (by simp) hx
            rwa [plain, if_pos (hE.exParent r hx)] at this
      · cases h1; exact .refl _ _ _

theorem globs_dirDep {u : Bool} {t : String} (h : '*' ∉ t.toList) : globs E (dirDep E u t) = dirDep E u t := by
  apply globs_id
  intro d hd
  unfold dirDep at hd
  split at hd
  · rw [List.mem_singleton] at hd
    rw [hd]
    exact nostar_anc h 0
  · cases hd

theorem plain_eq (t : String) : plain E t = makeObj t (dirDep E true t) := by
  unfold plain dirDep
  cases E.ex (parent t) <;> rfl

/-- the new directories of a file -/
def DirFor (E : Env) (t : String) (ob : Obj) (k : Kind) : Prop :=
  k = .dir ∧ ∃ q, MissingDir E t q ∧ ob = plain E q

/-- the sources made of existing dependencies -/
def SrcFor (E : Env) (deps : List String) (ob : Obj) (k : Kind) : Prop :=
  k = .source ∧ ∃ r ∈ globs E deps, E.ex r = true ∧ ob = plain E (E.canon r)

/-- what `fileInit` returns and does -/
theorem fileInit_keeps (hE : E.Sane) : ∀ (fuel : Nat) (d d' : MReg) (tgt t : String) (deps ds : List String) (u : Bool),
    NoStar E tgt → fileInit E fuel d tgt deps u = .ok (d', t, ds) →
    t = E.canon tgt ∧ ds = globs E deps ++ dirDep E u t ∧
    Keeps E.canon d d' (MissingDir E t) (fun ob k => DirFor E t ob k ∨ SrcFor E deps ob k) := by
  intro fuel
  induction fuel with
  | zero => intro d d' tgt t deps ds u _ h; cases h
  | succ fuel ih =>
    intro d d' tgt t deps ds u hs h
    simp only [fileInit] at h
    split at h
    · cases h
    · rename_i d1 deps1 hdir
      split at h
      · cases h
      · rename_i d2 hsrc
        simp only [Except.ok.injEq, Prod.mk.injEq] at h
        obtain ⟨rfl, rfl, rfl⟩ := h
        have hdeps1 : deps1 = deps ++ dirDep E u (E.canon tgt) := by
          split at hdir
          · rename_i hc
            split at hdir
            · cases hdir
            · cases hdir; rw [dirDep, if_pos hc]
          · rename_i hc
            cases hdir; rw [dirDep, if_neg hc, List.append_nil]
        have hgl : globs E deps1 = globs E deps ++ dirDep E u (E.canon tgt) := by
          rw [hdeps1, globs_append, globs_dirDep hs.1]
        have hk2 : Keeps E.canon d1 d2 (MissingDir E (E.canon tgt))
            (fun ob k => DirFor E (E.canon tgt) ob k ∨ SrcFor E deps ob k) := by
          refine (keeps_sources hE _ _ _ (fun ob k => DirFor E (E.canon tgt) ob k ∨ SrcFor E deps ob k)
            (fun r hr hx => ?_) hsrc).mono (fun _ h => h.elim) fun _ _ h => h
          rw [hgl, List.mem_append] at hr
          rcases hr with hr | hr
          · exact Or.inr ⟨rfl, r, hr, hx, rfl⟩
          · unfold dirDep at hr
            split at hr
            · rename_i hc
              simp only [Bool.and_eq_true, Bool.not_eq_true'] at hc
              rw [List.mem_singleton] at hr
              rw [hr, hc.2] at hx
              cases hx
            · cases hr
        refine ⟨rfl, hgl, ?_⟩
        split at hdir
        · rename_i hc
          split at hdir
          · cases hdir
          · rename_i d0 t0 ds0 h0
            cases hdir
            have hm : E.ex (parent (E.canon tgt)) = false := by
              simp only [Bool.and_eq_true, Bool.not_eq_true'] at hc; exact hc.2
            have hd : MissingDir E (E.canon tgt) (E.canon (parent (E.canon tgt))) := ⟨0, hm, rfl⟩
            obtain ⟨rfl, hds0, hk0⟩ := ih _ _ _ _ _ _ _
              ⟨hs.2 _ hd, fun q hq => hs.2 q (missingDir_parent hE hm hq)⟩ h0
            have hu : makeObj (E.canon (parent (E.canon tgt))) ds0 = plain E (E.canon (parent (E.canon tgt))) := by
              have h1 : parent (E.canon (parent (E.canon tgt))) = E.canon (parent (parent (E.canon tgt))) :=
                hE.canonParent (E.canon tgt) 0 hm
              rw [plain_eq, hds0]
              simp only [globs, List.flatMap_nil, List.nil_append, dirDep, h1, hE.exCanonParent]
              cases E.ex (parent (parent (E.canon tgt))) <;> rfl
            refine (Keeps.trans (b := d0) ?_ ?_).trans hk2
            · refine hk0.mono (fun q => missingDir_parent hE hm) fun ob k hq => ?_
              rcases hq with ⟨hk, q, hq, he⟩ | ⟨_, r, hr, _⟩
              · exact Or.inl ⟨hk, q, missingDir_parent hE hm hq, he⟩
              · cases hr
            · refine (keeps_add d0 _ (by exact hE.idem _)).mono ?_ ?_
              · rintro q rfl; exact hd
              · rintro ob k ⟨rfl, rfl⟩
                exact Or.inl ⟨rfl, _, hd, hu⟩
        · cases hdir
          exact hk2

/-! ### `source` and file targets -/

/-- all names of the file `p` mean the object `o` -/
def Names (E : Env) (c : MReg) (p : String) (o : Nat) : Prop :=
  ∀ n, E.canon n = E.canon p → Resolves E.canon c.reg n o

/-- no name of the file `p` means anything -/
def Free (E : Env) (c : MReg) (p : String) : Prop :=
  ∀ n o, E.canon n = E.canon p → ¬ Resolves E.canon c.reg n o

theorem Keeps.free {c c' : MReg} {D : String → Prop} {T : Obj → Kind → Prop} (h : Keeps E.canon c c' D T) {p : String}
    (hp : Free E c p) (hT : ∀ ob k, T ob k → ob.tgt ≠ E.canon p) : Free E c' p := by
  intro n o hn hr
  rcases h.new n o hr with hr | ⟨h1, h2, h3⟩
  · exact hp n o hn hr
  · exact hT _ _ (h.fresh o h1 h2) (h3.trans hn)

theorem Keeps.names {c c' : MReg} {D : String → Prop} {T : Obj → Kind → Prop} (h : Keeps E.canon c c' D T) {p : String}
    {o : Nat} (hp : Names E c p o) (hD : ¬ D (E.canon p)) : Names E c' p o :=
  fun n hn => h.keep n o (hp n hn) (by rw [hn]; exact hD)

/-- a new file -/
theorem names_add {c : MReg} {p : String} (hf : Free E c p) (ds : List String) (k : Kind) :
    Names E (c.add (makeObj (E.canon p) ds) k) p c.reg.next := by
  intro n hn
  have h1 : c.reg.targets.get n = none := by
    cases hg : c.reg.targets.get n with
    | none => rfl
    | some o => exact absurd (Or.inl hg) (hf n o hn)
  by_cases he : n = E.canon p
  · subst he; exact add_self
  · right
    simp only [MReg.add, Core.add, makeObj]
    rw [Dict.get_set_ne _ _ (Ne.symm he), hn]
    exact ⟨h1, Dict.get_set_self _ _ _⟩

/-- make.py:211-221: `source` of a file; nothing but missing directories above it changes its meaning -/
theorem sourceG_keeps (hE : E.Sane) {lim : Nat} {d d' : MReg} {p : String} (hs : NoStar E p)
    (hself : ¬ MissingDir E (E.canon p) (E.canon p)) (h : sourceG E lim d p [] = .ok d') :
    Keeps E.canon d d' (MissingDir E (E.canon p))
      (fun ob k => DirFor E (E.canon p) ob k ∨ k = .source ∧ ob = plain E (E.canon p)) ∧
    ∃ o, Resolves E.canon d'.reg p o := by
  unfold sourceG at h
  simp only at h
  split at h
  · rename_i hh
    cases h
    obtain ⟨o, ho⟩ := has_true.1 hh
    exact ⟨keeps_has hE.idem d p _ _, o, ((has_extends hE.idem d p).2.2.2.2 _ _).2 ho⟩
  · rename_i hh
    obtain ⟨he, hf0, hf1⟩ := has_false (by simpa using hh)
    rw [he] at h
    split at h
    · cases h
    · rename_i d1 t ds h1
      cases h
      obtain ⟨rfl, hds, hk⟩ := fileInit_keeps hE _ _ _ _ _ _ _ _ hs h1
      have hk' : Keeps E.canon d d1 (MissingDir E (E.canon p)) (DirFor E (E.canon p)) :=
        hk.mono (fun _ h => h) (by
          rintro ob k (h | ⟨_, r, hr, _⟩)
          · exact h
          · cases hr)
      have hfree : ∀ n o, E.canon n = E.canon p → d1.reg.targets.get n = some o → Resolves E.canon d.reg n o := by
        intro n o hn hg
        rcases hk'.new n o (Or.inl hg) with h | ⟨h1, h2, h3⟩
        · exact h
        · obtain ⟨_, q, hq, he⟩ := hk'.fresh o h1 h2
          rw [he, hn] at h3
          exact absurd (h3 ▸ hq) hself
      have hf1' : d1.reg.targets.get (E.canon p) = none := by
        cases hg : d1.reg.targets.get (E.canon p) with
        | none => rfl
        | some o =>
          rcases hfree _ o (hE.idem p) hg with h | ⟨_, h⟩
          · rw [hf1] at h; cases h
          · rw [hE.idem, hf1] at h; cases h
      have hf0' : d1.reg.targets.get p = none := by
        cases hg : d1.reg.targets.get p with
        | none => rfl
        | some o =>
          rcases hfree _ o rfl hg with h | ⟨_, h⟩
          · rw [hf0] at h; cases h
          · rw [hf1] at h; cases h
      refine ⟨Keeps.trans (b := d1) (hk'.mono (fun _ h => h) fun _ _ h => Or.inl h) ?_, d1.reg.next, ?_⟩
      · refine (keeps_add_free d1 _ (by exact hE.idem p) hf1').mono (fun _ h => h.elim) ?_
        rintro ob k ⟨rfl, rfl⟩
        exact Or.inr ⟨rfl, by rw [plain_eq, hds]; simp [globs]⟩
      · by_cases hp : p = E.canon p
        · have : Resolves E.canon (d1.add (makeObj (E.canon p) ds) Kind.source).reg (E.canon p) d1.reg.next := add_self
          rwa [← hp] at this ⊢
        · right
          simp only [MReg.add, Core.add, makeObj]
          rw [Dict.get_set_ne _ _ (Ne.symm hp)]
          exact ⟨hf0', Dict.get_set_self _ _ _⟩

/-- a file made from `deps` -/
def madeFrom (E : Env) (p : String) (deps : List String) : Obj :=
  makeObj (E.canon p) (globs E deps ++ dirDep E true (E.canon p))

/-- make.py:121-138 and core.py:62-73: a new file target in the default core -/
theorem fileTarget_keeps (hE : E.Sane) {lim : Nat} {d d' : MReg} {p t : String} {deps ds : List String} (hs : NoStar E p)
    (hself : ¬ MissingDir E (E.canon p) (E.canon p)) (hf : Free E d p)
    (hdeps : ∀ r ∈ globs E deps, E.ex r = true → E.canon r ≠ E.canon p)
    (h : fileInit E lim d p deps true = .ok (d', t, ds)) :
    Keeps E.canon d (d'.add (makeObj t ds) .file) (MissingDir E (E.canon p))
      (fun ob k => DirFor E (E.canon p) ob k ∨ SrcFor E deps ob k ∨ k = .file ∧ ob = madeFrom E p deps) ∧
    Names E (d'.add (makeObj t ds) .file) p d'.reg.next ∧ d.reg.next ≤ d'.reg.next ∧
    (d'.add (makeObj t ds) .file).reg.obj d'.reg.next = madeFrom E p deps ∧
    (d'.add (makeObj t ds) .file).kind d'.reg.next = .file := by
  obtain ⟨rfl, rfl, hk⟩ := fileInit_keeps hE _ _ _ _ _ _ _ _ hs h
  have hf' : Free E d' p := hk.free hf (by
    rintro ob k (⟨_, q, hq, rfl⟩ | ⟨_, r, hr, hx, rfl⟩)
    · intro he; change q = _ at he; rw [he] at hq; exact hself hq
    · exact hdeps r hr hx)
  have hfree : d'.reg.targets.get (E.canon p) = none := by
    cases hg : d'.reg.targets.get (E.canon p) with
    | none => rfl
    | some o => exact absurd (Or.inl hg) (hf' _ o (hE.idem p))
  refine ⟨Keeps.trans (b := d') (hk.mono (fun _ h => h) ?_) ((keeps_add_free d' _ (by exact hE.idem p) hfree).mono
    (fun _ h => h.elim) ?_), names_add hf' _ _, hk.next, ?_, ?_⟩
  · rintro ob k (h | h)
    · exact Or.inl h
    · exact Or.inr (Or.inl h)
  · rintro ob k ⟨rfl, rfl⟩
    exact Or.inr (Or.inr ⟨rfl, rfl⟩)
  · simp [MReg.add, Core.add, madeFrom]
  · simp [MReg.add]

end Licant.Make
