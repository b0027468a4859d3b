/-
C++ projects satisfy the assumptions of the theorems about builds: C96, and what follows for them: C97.
-/
import Verif.Cxx.Task
import Verif.Make.Default

set_option autoImplicit false

namespace Licant.Cxx
open Licant.Py Licant.Core Licant.Make Relation
open Licant.Modules (Val Opts Toolchain Lib)

/-! ### Specification -/

/-- The files `F` can be targets in the registry `c`, next to the existing files `A`:
* there are no patterns in their names;
* none of them is, or is above, a directory that will be created for a file in `F`, or a registered directory;
* what is registered for one of them is a file;
* no registered file is used as a directory by one of them. -/
structure Room (E : Env) (c : MReg) (F A : List String) : Prop where
  nostar : ∀ f ∈ F, '*' ∉ f.toList ∧ NoStar E f
  there : ∀ r ∈ A, E.ex r = true
  apart : ∀ f ∈ F ++ A, ∀ g ∈ F, ∀ q, MissingDir E (E.canon g) q → E.canon f ≠ q ∧ ¬ IsAnc (E.canon f) q
  notdir : ∀ f ∈ F ++ A, ∀ b, c.kind b = .dir → ¬ IsAnc (E.canon f) (c.reg.obj b).tgt
  known : ∀ f ∈ F, ∀ x, Resolves E.canon c.reg f x → FileLike (c.kind x)
  knownA : ∀ r ∈ A, ∀ x, Resolves E.canon c.reg r x → c.kind x ≠ .other
  clear : ∀ f ∈ F, Clear E c (E.canon f)

/-- The units `us` with the additional dependencies `adddeps` are made of the files `F` and `A`:
* all files of the units are in `F`, existing additional dependencies in `F` or `A`;
* the outputs are different files, not read by any unit, and none of the additional dependencies. -/
structure Batch (S : Site) (us : List CUnit) (adddeps F A : List String) : Prop where
  files : ∀ u ∈ us, ∀ f ∈ CUnit.files S u, f ∈ F
  there : ∀ r ∈ globs S.env adddeps, S.env.ex r = true → r ∈ F ++ A
  outputs : ((us.flatMap CUnit.outs).map S.env.canon).Nodup
  apart : ∀ u ∈ us, ∀ v ∈ us, ∀ p ∈ CUnit.outs u, ∀ f ∈ CUnit.ins S v, S.env.canon f ≠ S.env.canon p
  adds : ∀ u ∈ us, ∀ p ∈ CUnit.outs u, ∀ r ∈ globs S.env adddeps, S.env.canon r ≠ S.env.canon p

/-! ### Steps -/

variable {S : Site} {E : Env} {F A : List String}

/-- the targets that are added in the course of registration -/
def Fitting (E : Env) (F A : List String) (ob : Obj) (k : Kind) : Prop :=
  (∃ f ∈ F, DirFor E (E.canon f) ob k) ∨ FileLike k ∧ ∃ f ∈ F ++ A, ob.tgt = E.canon f

theorem fileLike_ne {k : Kind} (h : FileLike k) : k ≠ .dir ∧ k ≠ .fileset ∧ k ≠ .other := by
  rcases h with rfl | rfl <;> simp

theorem Room.step {c c' : MReg} {D : String → Prop} {T : Obj → Kind → Prop} (h : Room E c F A) (hE : E.Sane)
    (hg : GoodD E c) (hg' : GoodD E c') (hk : Keeps E.canon c c' D T) (hT : ∀ ob k, T ob k → Fitting E F A ob k) :
    Room E c' F A := by
  have hcase : ∀ x, c'.kind x ≠ .other → c'.kind x = c.kind x ∧ c'.reg.obj x = c.reg.obj x ∨
      Fitting E F A (c'.reg.obj x) (c'.kind x) := by
    intro x hx
    by_cases hlt : x < c.reg.next
    · exact Or.inl (hk.obj x hlt).symm
    · exact Or.inr (hT _ _ (hk.fresh x (by omega) (hg'.old hx)))
  refine ⟨h.nostar, h.there, h.apart, ?_, ?_, ?_, ?_⟩
  · intro f hf b hb
    rcases hcase b (by rw [hb]; simp) with ⟨h1, h2⟩ | (⟨g, hg, _, q, hq, he⟩ | ⟨hl, _⟩)
    · rw [h2]; exact h.notdir f hf b (h1 ▸ hb)
    · rw [he]; exact (h.apart f hf g hg q hq).2
    · exact absurd hb (fileLike_ne hl).1
  · intro f hf x hx
    rcases hk.new f x hx with hx | ⟨h1, h2, h3⟩
    · rw [(hk.obj x (hg.wf _ _ hx)).2]; exact h.known f hf x hx
    · rcases hT _ _ (hk.fresh x h1 h2) with ⟨g, hg, _, q, hq, he⟩ | ⟨hl, _⟩
      · rw [he] at h3
        exact absurd h3.symm (h.apart f (by simp [hf]) g hg q hq).1
      · exact hl
  · intro r hr x hx
    rcases hk.new r x hx with hx | ⟨h1, h2, h3⟩
    · rw [(hk.obj x (hg.wf _ _ hx)).2]; exact h.knownA r hr x hx
    · rcases hT _ _ (hk.fresh x h1 h2) with ⟨_, _, hkd, _⟩ | ⟨hl, _⟩
      · rw [hkd]; simp
      · exact (fileLike_ne hl).2.2
  · intro f hf
    refine ⟨?_, ?_⟩
    · intro a q ha hq
      rcases hcase a (fileLike_ne ha).2.2 with ⟨h1, h2⟩ | (⟨g, _, hkd, _⟩ | ⟨_, g, hg, he⟩)
      · rw [h2]; exact (h.clear f hf).nofile a q (h1 ▸ ha) hq
      · exact absurd hkd (fileLike_ne ha).1
      · rw [he]; exact (h.apart g hg f hf q hq).2
    · intro i o hx hr
      have hn : ∃ n, E.canon n = E.canon (anc (E.canon f) i) ∧ Resolves E.canon c'.reg n o ∧
          (Resolves E.canon c.reg n o → Resolves E.canon c.reg (anc (E.canon f) i) o ∨
            Resolves E.canon c.reg (E.canon (anc (E.canon f) i)) o) := by
        rcases hr with hr | hr
        · exact ⟨_, rfl, hr, Or.inl⟩
        · exact ⟨_, hE.idem _, hr, Or.inr⟩
      obtain ⟨n, hcn, hr, hback⟩ := hn
      rcases hk.new n o hr with hr' | ⟨h1, h2, h3⟩
      · have := (h.clear f hf).taken i o hx (hback hr')
        rw [(hk.obj o (hg.wf _ _ hr')).2]; exact this
      · rcases hT _ _ (hk.fresh o h1 h2) with ⟨g, hg, hkd, _⟩ | ⟨_, g, hg, he⟩
        · exact hkd
        · rw [he, hcn] at h3
          exact absurd h3 (h.apart g hg f hf _ ⟨i, hx, rfl⟩).1

/-- a file that is not registered fits -/
theorem Room.fits {c : MReg} (h : Room E c F A) {p : String} (hp : p ∈ F)
    (hn : ∀ o, ¬ Resolves E.canon c.reg (E.canon p) o) : FitsD E c p :=
  ⟨(h.nostar p hp).2, hn, h.apart p (by simp [hp]) p hp, h.notdir p (by simp [hp]), h.clear p hp⟩

/-- a registered file of the project -/
theorem Room.leads {c : MReg} (h : Room E c F A) {p : String} (hp : p ∈ F) (hr : ∃ o, Resolves E.canon c.reg p o) :
    Leads E c p := by
  obtain ⟨o, ho⟩ := hr
  exact ⟨o, ho, (fileLike_ne (h.known p hp o ho)).2.2⟩

theorem Room.self {c : MReg} (h : Room E c F A) {p q : String} (hp : p ∈ F) (hq : q ∈ F) :
    ¬ MissingDir E (E.canon q) (E.canon p) := fun hm => (h.apart p (by simp [hp]) q hq _ hm).1 rfl

/-- what registration of a part of the project keeps and gives -/
structure Stage (S : Site) (F A : List String) (L L' : LReg) (N : String → Prop) : Prop where
  good : GoodD S.env L'.m
  room : Room S.env L'.m F A
  follows : Follows S.env L.m L'.m
  keepFree : ∀ p, (∀ f ∈ F, ¬ MissingDir S.env (S.env.canon f) (S.env.canon p)) → Free S.env L.m p →
    ¬ N (S.env.canon p) → Free S.env L'.m p

theorem Stage.free {L L' : LReg} {N : String → Prop} (h : Stage S F A L L' N) : ∀ p ∈ F, Free S.env L.m p →
    ¬ N (S.env.canon p) → Free S.env L'.m p := fun p hp => h.keepFree p fun _ hf => h.room.self hp hf

theorem Stage.refl {L : LReg} {N : String → Prop} (hg : GoodD S.env L.m) (hr : Room S.env L.m F A) :
    Stage S F A L L N := ⟨hg, hr, .refl, fun _ _ h _ => h⟩

theorem Stage.trans {a b c : LReg} {N : String → Prop} (hg : GoodD S.env a.m) (h : Stage S F A a b N)
    (h' : Stage S F A b c N) : Stage S F A a c N :=
  ⟨h'.good, h'.room, h.follows.trans h'.follows hg.wf h.good.wf,
    fun p hp hf hn => h'.keepFree p hp (h.keepFree p hp hf hn) hn⟩

theorem Stage.mono {a b : LReg} {N N' : String → Prop} (h : Stage S F A a b N) (hN : ∀ q, N q → N' q) :
    Stage S F A a b N' := ⟨h.good, h.room, h.follows, fun p hp hf hn => h.keepFree p hp hf fun hq => hn (hN _ hq)⟩

/-- new targets are not at the paths of free files -/
theorem free_step {c c' : MReg} {D : String → Prop} {T : Obj → Kind → Prop} (hk : Keeps E.canon c c' D T) {N : String → Prop}
    (hT : ∀ ob k, T ob k → (∃ f ∈ F, DirFor E (E.canon f) ob k) ∨ N ob.tgt) {p : String}
    (hp : ∀ f ∈ F, ¬ MissingDir E (E.canon f) (E.canon p)) (hf : Free E c p) (hn : ¬ N (E.canon p)) : Free E c' p := by
  refine hk.free hf fun ob k ht he => ?_
  rcases hT ob k ht with ⟨g, hg, _, q, hq, rfl⟩ | h1
  · change q = _ at he
    exact hp g hg (he ▸ hq)
  · exact hn (he ▸ h1)

/-- a source -/
theorem addSource_stage (hE : S.env.Sane) {L L' : LReg} {p : String} (hg : GoodD S.env L.m)
    (hr : Room S.env L.m F A) (hp : p ∈ F) (h : addSource S L p = .ok L') :
    Stage S F A L L' (· = S.env.canon p) ∧ Leads S.env L'.m p := by
  obtain ⟨hk, hres⟩ := addSource_keeps hE (hr.nostar p hp).2 (hr.self hp hp) h
  have hT : ∀ ob k, (DirFor S.env (S.env.canon p) ob k ∨ k = .source ∧ ob = plain S.env (S.env.canon p)) →
      Fitting S.env F A ob k ∧ ((∃ f ∈ F, DirFor S.env (S.env.canon f) ob k) ∨ ob.tgt = S.env.canon p) := by
    rintro ob k (hd | ⟨rfl, rfl⟩)
    · exact ⟨Or.inl ⟨p, hp, hd⟩, Or.inl ⟨p, hp, hd⟩⟩
    · exact ⟨Or.inr ⟨Or.inr rfl, p, by simp [hp], rfl⟩, Or.inr rfl⟩
  have h' := h
  unfold addSource at h'
  simp only [bind, Except.bind] at h'
  split at h'
  · cases h'
  · rename_i m hm
    cases h'
    obtain ⟨hg', hf', _⟩ := goodD_source hE hg (by
      by_cases hx : ∃ o, Resolves S.env.canon L.m.reg p o
      · obtain ⟨o, ho⟩ := hx
        exact Or.inl ⟨o, ho, (fileLike_ne (hr.known p hp o ho)).1⟩
      · refine Or.inr (hr.fits hp fun o ho => hx ?_)
        rcases ho with ho | ⟨_, ho⟩
        · cases hget : L.m.reg.targets.get p with
          | some y => exact ⟨y, Or.inl hget⟩
          | none => exact ⟨o, Or.inr ⟨hget, ho⟩⟩
        · rw [hE.idem] at ho
          cases hget : L.m.reg.targets.get p with
          | some y => exact ⟨y, Or.inl hget⟩
          | none => exact ⟨o, Or.inr ⟨hget, ho⟩⟩) (liftE_ok hm)
    have hr' := hr.step hE hg hg' hk.1 fun ob k ht => (hT ob k ht).1
    exact ⟨⟨hg', hr', hf',
      fun q hq hfq hn => free_step hk.1 (N := (· = S.env.canon p)) (fun ob k ht => (hT ob k ht).2) hq hfq hn⟩,
      hr'.leads hp hres⟩

/-- several sources -/
theorem addSources_stage (hE : S.env.Sane) {N : String → Prop} : ∀ (l : List String) {L L' : LReg}, GoodD S.env L.m →
    Room S.env L.m F A → (∀ p ∈ l, p ∈ F ∧ N (S.env.canon p)) → l.foldlM (addSource S) L = .ok L' →
    Stage S F A L L' N ∧ ∀ p ∈ l, Leads S.env L'.m p := by
  intro l
  induction l with
  | nil =>
    intro L L' hg hr _ h
    cases h
    exact ⟨.refl hg hr, by simp⟩
  | cons p l ih =>
    intro L L' hg hr hl h
    simp only [List.foldlM_cons, bind, Except.bind] at h
    split at h
    · cases h
    · rename_i L1 h1
      obtain ⟨hs1, hres⟩ := addSource_stage hE hg hr (hl p (by simp)).1 h1
      obtain ⟨hs2, hrest⟩ := ih hs1.good hs1.room (fun q hq => hl q (by simp [hq])) h
      refine ⟨(hs1.mono (by rintro q rfl; exact (hl p (by simp)).2)).trans hg hs2, ?_⟩
      intro q hq
      rcases List.mem_cons.1 hq with rfl | hq
      · exact hs2.follows.leads hs1.good.wf hres
      · exact hrest q hq

/-- a file with dependencies -/
theorem addFile_stage (hE : S.env.Sane) {L L' : LReg} {p : String} {deps : List String} {f : Bool}
    {cmd : String → Except Modules.Err String} (hg : GoodD S.env L.m) (hr : Room S.env L.m F A) (hp : p ∈ F)
    (hf : Free S.env L.m p)
    (hdeps : ∀ r ∈ globs S.env deps, S.env.canon r ≠ S.env.canon p ∧
      (Leads S.env L.m r ∨ r ∈ A) ∧ (S.env.ex r = true → r ∈ F ++ A))
    (h : addFile S L p deps f cmd = .ok L') :
    Stage S F A L L' (fun q => q = S.env.canon p ∨ ∃ r ∈ globs S.env deps, S.env.ex r = true ∧ q = S.env.canon r) := by
  obtain ⟨hk, _⟩ := addFile_keeps hE (hr.nostar p hp).2 (hr.self hp hp) hf (fun r hr' _ => (hdeps r hr').1) h
  have hT : ∀ ob k, (DirFor S.env (S.env.canon p) ob k ∨ SrcFor S.env deps ob k ∨
      k = .file ∧ ob = madeFrom S.env p deps) → Fitting S.env F A ob k ∧
      ((∃ f ∈ F, DirFor S.env (S.env.canon f) ob k) ∨
        (ob.tgt = S.env.canon p ∨ ∃ r ∈ globs S.env deps, S.env.ex r = true ∧ ob.tgt = S.env.canon r)) := by
    rintro ob k (hd | ⟨rfl, r, hr', hx, rfl⟩ | ⟨rfl, rfl⟩)
    · exact ⟨Or.inl ⟨p, hp, hd⟩, Or.inl ⟨p, hp, hd⟩⟩
    · exact ⟨Or.inr ⟨Or.inr rfl, r, (hdeps r hr').2.2 hx, rfl⟩, Or.inr (Or.inr ⟨r, hr', hx, rfl⟩)⟩
    · exact ⟨Or.inr ⟨Or.inl rfl, p, by simp [hp], rfl⟩, Or.inr (Or.inl rfl)⟩
  have h' := h
  unfold addFile at h'
  simp only [bind, Except.bind] at h'
  split at h'
  · cases h'
  · split at h'
    · cases h'
    · rename_i r hr'
      obtain ⟨d, t, ds⟩ := r
      cases h'
      obtain ⟨hg', hf', _⟩ := goodD_file hE hg (hr.fits hp fun o ho => hf _ o (hE.idem _) ho) (Or.inl rfl) (by
        intro r hrm
        obtain ⟨h1, h2, h3⟩ := hdeps r hrm
        refine ⟨h1, ?_⟩
        rcases h2 with h2 | h2
        · exact Or.inl h2
        · exact Or.inr ⟨hr.there r h2, hr.knownA r h2, hr.notdir r (by simp [h2]),
            fun q hq => (hr.apart r (by simp [h2]) p hp q hq).2⟩) (liftE_ok hr')
      exact ⟨hg', hr.step hE hg hg' hk.1 fun ob k ht => (hT ob k ht).1, hf',
        fun q hq hfq hn => free_step hk.1 (N := fun q => q = S.env.canon p ∨ ∃ r ∈ globs S.env deps,
          S.env.ex r = true ∧ q = S.env.canon r) (fun ob k ht => (hT ob k ht).2) hq hfq hn⟩

/-- the paths that are registered for the units `us` -/
def PathsOf (S : Site) (us : List CUnit) (adddeps : List String) (q : String) : Prop :=
  (∃ u ∈ us, ∃ f ∈ CUnit.files S u, q = S.env.canon f) ∨ ∃ r ∈ globs S.env adddeps, S.env.ex r = true ∧ q = S.env.canon r

theorem linkObject_stage (hE : S.env.Sane) {L L' : LReg} {opts : CxxOpts} {adddeps : List String} {u : CUnit}
    {us : List CUnit} (hB : Batch S (u :: us) adddeps F A) (hg : GoodD S.env L.m) (hr : Room S.env L.m F A)
    (hfree : ∀ p ∈ CUnit.outs u, Free S.env L.m p)
    (hadd : ∀ r ∈ globs S.env adddeps, Leads S.env L.m r ∨ r ∈ A)
    (h : linkObject S opts adddeps L u = .ok L') : Stage S F A L L' (PathsOf S [u] adddeps) := by
  obtain ⟨s, o, d⟩ := u
  have hmem : ((s, o, d) : CUnit) ∈ (s, o, d) :: us := by simp
  have hF := hB.files _ hmem
  have hfs : ∀ f ∈ s :: S.hdrs d, f ∈ CUnit.files S (s, o, d) := fun f hf => by
    simp only [CUnit.files, List.mem_append]; exact Or.inl hf
  have hfo : o ∈ CUnit.files S (s, o, d) := by simp [CUnit.files, CUnit.outs]
  have hfd : d ∈ CUnit.files S (s, o, d) := by simp [CUnit.files, CUnit.outs]
  have hpath : ∀ f ∈ CUnit.files S (s, o, d), PathsOf S [(s, o, d)] adddeps (S.env.canon f) :=
    fun f hf => Or.inl ⟨_, by simp, f, hf, rfl⟩
  have hod : S.env.canon d ≠ S.env.canon o := by
    have := hB.outputs
    rw [List.flatMap_cons, List.map_append, List.nodup_append] at this
    have := this.1
    simp only [CUnit.outs, List.map_cons, List.map_nil, List.nodup_cons, List.mem_singleton] at this
    exact this.1
  have hio : ∀ f ∈ s :: S.hdrs d, ∀ p ∈ CUnit.outs (s, o, d), S.env.canon f ≠ S.env.canon p :=
    fun f hf p hp => hB.apart _ hmem _ hmem p hp f hf
  have hns : ∀ f ∈ CUnit.files S (s, o, d), '*' ∉ f.toList := fun f hf => (hr.nostar f (hF f hf)).1
  unfold linkObject at h
  simp only [bind, Except.bind] at h
  split at h
  · cases h
  · rename_i L1 h1
    split at h
    · cases h
    · rename_i L2 h2
      split at h
      · cases h
      · rename_i L3 h3
        have h12 : (s :: S.hdrs d).foldlM (addSource S) L = .ok L2 := by
          rw [ensureSource_eq] at h1
          simp only [List.foldlM_cons, h1, bind, Except.bind]
          have hfun : ensureSource S = addSource S := by funext L p; exact ensureSource_eq
          rw [hfun] at h2
          exact h2
        obtain ⟨hs12, hres⟩ := addSources_stage hE (N := fun q => ∃ f ∈ s :: S.hdrs d, q = S.env.canon f) _ hg hr
          (fun p hp => ⟨hF p (hfs p hp), p, hp, rfl⟩) h12
        have hfr12 : ∀ p ∈ CUnit.outs (s, o, d), Free S.env L2.m p := by
          intro p hp
          refine hs12.free p (hF p (by simp only [CUnit.files, List.mem_append]; exact Or.inr hp)) (hfree p hp) ?_
          rintro ⟨f, hf, he⟩
          exact hio f hf p hp he.symm
        have hsplit : ∀ pre : List String, (∀ f ∈ pre, '*' ∉ f.toList) → ∀ r ∈ globs S.env (pre ++ adddeps ++ S.hdrs d),
            r ∈ pre ∨ r ∈ globs S.env adddeps ∨ r ∈ S.hdrs d := by
          intro pre hpre r hr
          rw [globs_append, globs_append, List.mem_append, List.mem_append] at hr
          rcases hr with (hr | hr) | hr
          · exact Or.inl (mem_globs_nostar hpre hr)
          · exact Or.inr (Or.inl hr)
          · exact Or.inr (Or.inr (mem_globs_nostar (fun f hf => hns f (hfs f (by simp [hf]))) hr))
        have hins : ∀ r ∈ s :: S.hdrs d, ∀ p ∈ CUnit.outs (s, o, d), ∀ M : LReg, Follows S.env L2.m M.m →
            S.env.canon r ≠ S.env.canon p ∧ (Leads S.env M.m r ∨ r ∈ A) ∧
            (S.env.ex r = true → r ∈ F ++ A) := fun r hr' p hp M hM =>
          ⟨hio r hr' p hp, Or.inl (hM.leads hs12.good.wf (hres r hr')), fun _ => by simp [hF r (hfs r hr')]⟩
        have hadds : ∀ r ∈ globs S.env adddeps, ∀ p ∈ CUnit.outs (s, o, d), ∀ M : LReg, Follows S.env L2.m M.m →
            S.env.canon r ≠ S.env.canon p ∧ (Leads S.env M.m r ∨ r ∈ A) ∧
            (S.env.ex r = true → r ∈ F ++ A) := fun r hr' p hp M hM =>
          ⟨hB.adds _ hmem p hp r hr', (hadd r hr').imp (fun h => hM.leads hs12.good.wf (hs12.follows.leads hg.wf h)) id,
            fun hx => hB.there r hr' hx⟩
        have hdo : d ∈ CUnit.outs (s, o, d) := by simp [CUnit.outs]
        have hoo : o ∈ CUnit.outs (s, o, d) := by simp [CUnit.outs]
        have hs3 := addFile_stage hE hs12.good hs12.room (hF d hfd) (hfr12 d hdo) (by
          intro r hr'
          rcases hsplit [s] (by simpa using hns s (hfs s (by simp))) r hr' with h | h | h
          · exact hins r (by rw [List.mem_singleton] at h; simp [h]) d hdo L2 .refl
          · exact hadds r h d hdo L2 .refl
          · exact hins r (by simp [h]) d hdo L2 .refl) h3
        have hdres : Leads S.env L3.m d := by
          obtain ⟨_, x, _, _, hn, _⟩ := addFile_keeps hE (hr.nostar d (hF d hfd)).2 (hr.self (hF d hfd) (hF d hfd))
            (hfr12 d hdo) (by
              intro r hr' _
              rcases hsplit [s] (by simpa using hns s (hfs s (by simp))) r hr' with h | h | h
              · exact (hins r (by rw [List.mem_singleton] at h; simp [h]) d hdo L2 .refl).1
              · exact (hadds r h d hdo L2 .refl).1
              · exact (hins r (by simp [h]) d hdo L2 .refl).1) h3
          exact hs3.room.leads (hF d hfd) ⟨x, hn d rfl⟩
        have hnN : ∀ pre : List String, (∀ f ∈ pre, f ∈ CUnit.files S (s, o, d)) → ∀ q,
            (∃ r ∈ globs S.env (pre ++ adddeps ++ S.hdrs d), S.env.ex r = true ∧ q = S.env.canon r) →
            PathsOf S [(s, o, d)] adddeps q := by
          rintro pre hpre q ⟨r, hr', hx, rfl⟩
          rcases hsplit pre (fun f hf => hns f (hpre f hf)) r hr' with h | h | h
          · exact hpath r (hpre r h)
          · exact Or.inr ⟨r, h, hx, rfl⟩
          · exact hpath r (hfs r (by simp [h]))
        have hpre2 : ∀ f ∈ [s, d], f ∈ CUnit.files S (s, o, d) := by
          intro f hf
          simp only [List.mem_cons, List.not_mem_nil, or_false] at hf
          rcases hf with rfl | rfl
          · exact hfs _ (by simp)
          · exact hfd
        have hs4 := addFile_stage hE hs3.good hs3.room (hF o hfo) (hs3.free o (hF o hfo) (hfr12 o hoo) (by
            rintro (he | ⟨r, hr', _, he⟩)
            · exact hod he.symm
            · rcases hsplit [s] (by simpa using hns s (hfs s (by simp))) r hr' with h | h | h
              · exact hio r (by rw [List.mem_singleton] at h; simp [h]) o hoo he.symm
              · exact hB.adds _ hmem o hoo r h he.symm
              · exact hio r (by simp [h]) o hoo he.symm)) (by
          intro r hr'
          rcases hsplit [s, d] (fun f hf => hns f (hpre2 f hf)) r hr' with h | h | h
          · simp only [List.mem_cons, List.not_mem_nil, or_false] at h
            rcases h with rfl | rfl
            · exact hins r (by simp) o hoo L3 hs3.follows
            · exact ⟨hod, Or.inl hdres, fun _ => by simp [hF r hfd]⟩
          · exact hadds r h o hoo L3 hs3.follows
          · exact hins r (by simp [h]) o hoo L3 hs3.follows) h
        refine Stage.trans hg (Stage.trans hg (hs12.mono ?_) (hs3.mono ?_)) (hs4.mono ?_)
        · rintro q ⟨f, hf, rfl⟩
          exact hpath f (hfs f hf)
        · rintro q (rfl | hq)
          · exact hpath d hfd
          · exact hnN [s] (by intro f hf; rw [List.mem_singleton] at hf; exact hfs f (by simp [hf])) q hq
        · rintro q (rfl | hq)
          · exact hpath o hfo
          · exact hnN [s, d] hpre2 q hq

theorem Batch.tail {u : CUnit} {us : List CUnit} {adddeps : List String} (h : Batch S (u :: us) adddeps F A) :
    Batch S us adddeps F A := by
  refine ⟨fun v hv => h.files v (by simp [hv]), h.there, ?_,
    fun v hv w hw => h.apart v (by simp [hv]) w (by simp [hw]), fun v hv => h.adds v (by simp [hv])⟩
  have := h.outputs
  rw [List.flatMap_cons, List.map_append, List.nodup_append] at this
  exact this.2.1

/-- all units -/
theorem linkAll_stage (hE : S.env.Sane) {opts : CxxOpts} {adddeps : List String} : ∀ (us : List CUnit) {L L' : LReg},
    Batch S us adddeps F A → GoodD S.env L.m → Room S.env L.m F A → (∀ u ∈ us, ∀ p ∈ CUnit.outs u, Free S.env L.m p) →
    (∀ r ∈ globs S.env adddeps, Leads S.env L.m r ∨ r ∈ A) →
    us.foldlM (linkObject S opts adddeps) L = .ok L' → Stage S F A L L' (PathsOf S us adddeps) := by
  intro us
  induction us with
  | nil =>
    intro L L' _ hg hr _ _ h
    cases h
    exact .refl hg hr
  | cons u us ih =>
    intro L L' hB hg hr hfree hadd h
    simp only [List.foldlM_cons, bind, Except.bind] at h
    split at h
    · cases h
    · rename_i L1 h1
      have hs1 := linkObject_stage hE hB hg hr (hfree u (by simp)) hadd h1
      have hs2 := ih hB.tail hs1.good hs1.room (by
        intro v hv p hp
        refine hs1.free p (hB.files v (by simp [hv]) p (by simp only [CUnit.files, List.mem_append]; exact Or.inr hp))
          (hfree v (by simp [hv]) p hp) ?_
        rintro (⟨w, hw, f, hf, he⟩ | ⟨r, hr', _, he⟩)
        · rw [List.mem_singleton] at hw
          subst hw
          rcases List.mem_append.1 hf with hf | hf
          · exact hB.apart v (by simp [hv]) w (by simp) p hp f hf he.symm
          · have := hB.outputs
            rw [List.flatMap_cons, List.map_append, List.nodup_append] at this
            exact this.2.2 _ (List.mem_map_of_mem hf) _ (List.mem_map_of_mem (List.mem_flatMap.2 ⟨v, hv, hp⟩)) he.symm
        · exact hB.adds v (by simp [hv]) p hp r hr' he.symm)
        (fun r hr' => (hadd r hr').imp (fun h => hs1.follows.leads hg.wf h) id) h
      refine Stage.trans hg (hs1.mono ?_) (hs2.mono ?_)
      · rintro q (⟨w, hw, f, hf, he⟩ | h)
        · rw [List.mem_singleton] at hw
          subst hw
          exact Or.inl ⟨w, by simp, f, hf, he⟩
        · exact Or.inr h
      · rintro q (⟨w, hw, hf⟩ | h)
        · exact Or.inl ⟨w, by simp [hw], hf⟩
        · exact Or.inr h

/-- the assumptions of C57 -/
theorem Batch.units (hE : S.env.Sane) {c : MReg} {us : List CUnit} {adddeps : List String} (hB : Batch S us adddeps F A)
    (hg : GoodD S.env c) (hr : Room S.env c F A) (hfree : ∀ u ∈ us, ∀ p ∈ CUnit.outs u, Free S.env c p) :
    Units S c us adddeps where
  nostar u hu f hf := hr.nostar f (hB.files u hu f hf)
  nodirs u hu v hv f hf g hg' := hr.self (hB.files u hu f hf) (hB.files v hv g hg')
  outputs := hB.outputs
  free := hfree
  apart := hB.apart
  adds u hu p hp r hr' _ := hB.adds u hu p hp r hr'
  known u hu f hf x hx := by
    have hF : f ∈ F := hB.files u hu f (by simp only [CUnit.files, List.mem_append]; exact Or.inl hf)
    have hk := hr.known f hF x hx
    refine ⟨hk, ?_⟩
    rw [hg.canonEq hE.idem hx, hg.canonT x (hg.wf _ _ hx) (fileLike_ne hk).2.1 (fileLike_ne hk).2.2]

/-! ### File sets, pairs of files, copies -/

theorem get_add (c : MReg) (ob : Obj) (k : Kind) (n : String) :
    (c.add ob k).reg.targets.get n = if ob.tgt = n then some c.reg.next else c.reg.targets.get n := by
  simp [MReg.add, Core.add, Dict.get_set]

/-- a set of registered files under a name that is no path of the project -/
theorem addFileset_stage (hE : S.env.Sane) {L L' : LReg} {name : String} {targets : List String}
    (hg : GoodD S.env L.m) (hr : Room S.env L.m F A) (hnew : ∀ o, ¬ Resolves S.env.canon L.m.reg name o)
    (hname : ∀ f ∈ F, S.env.canon f ≠ S.env.canon name)
    (hdir : ∀ f ∈ F, ¬ MissingDir S.env (S.env.canon f) (S.env.canon name))
    (htg : ∀ r ∈ globs S.env targets, r ∈ F ∧ ∃ o, Resolves S.env.canon L.m.reg r o)
    (h : addFileset S L name targets = .ok L') :
    Stage S F A L L' (· = S.env.canon name) ∧
    (∃ o, Resolves S.env.canon L'.m.reg name o ∧ L'.m.kind o = .fileset ∧
      L'.m.reg.obj o = makeObj name (globs S.env targets)) ∧ L'.force = L.force ∧ L'.cmd = L.cmd := by
  unfold addFileset at h
  simp only [bind, Except.bind] at h
  split at h
  · cases h
  · rename_i w hw
    cases h
    have hw := liftE_ok hw
    unfold filesetG at hw
    simp only [List.nil_append] at hw
    split at hw
    · cases hw
    · rename_i d hd
      cases hw
      obtain ⟨hg1, hf1, _⟩ := goodD_sources hE _ _ _ hg (fun r hr' _ => Or.inl (hr.leads (htg r hr').1 (htg r hr').2)) hd
      have hk := Make.addSources_keeps hE hd
      have hr1 : Room S.env d F A := hr.step hE hg hg1 hk (by
        rintro ob k ⟨rfl, r, hr', rfl⟩
        exact Or.inr ⟨Or.inr rfl, r, by simp [(htg r hr').1], rfl⟩)
      have hno : ∀ o, ¬ Resolves S.env.canon d.reg name o := by
        intro o ho
        rcases hk.new _ _ ho with h | ⟨h1, h2, h3⟩
        · exact hnew o h
        · obtain ⟨_, r, hr', he⟩ := hk.fresh o h1 h2
          rw [he] at h3
          exact hname r (htg r hr').1 h3
      have hslot : Slot S.env d name .fileset := Or.inl hno
      have hg2 : GoodD S.env (d.add (makeObj name (globs S.env targets)) .fileset) :=
        goodD_add hg1 hslot (fun h => absurd rfl h) (fun r hr' => hf1.leads hg.wf (hr.leads (htg r hr').1 (htg r hr').2))
          (by rintro (h | h) <;> cases h) (by intro h; cases h) (by rintro (h | h) <;> cases h) (by intro h; cases h)
      have hback : ∀ n o, S.env.canon n ≠ S.env.canon name →
          Resolves S.env.canon (d.add (makeObj name (globs S.env targets)) .fileset).reg n o →
          Resolves S.env.canon d.reg n o := by
        intro n o hn hres
        have h1 : name ≠ n := fun e => hn (by rw [e])
        have h2 : name ≠ S.env.canon n := fun e => hn (by rw [e, hE.idem])
        unfold Resolves at hres ⊢
        rw [get_add, get_add] at hres
        simpa [makeObj, h1, h2] using hres
      have hold : ∀ x, (d.add (makeObj name (globs S.env targets)) .fileset).kind x ≠ .fileset →
          (d.add (makeObj name (globs S.env targets)) .fileset).kind x = d.kind x ∧
          (d.add (makeObj name (globs S.env targets)) .fileset).reg.obj x = d.reg.obj x := by
        intro x hx
        by_cases e : x = d.reg.next
        · subst e; simp [MReg.add] at hx
        · simp [MReg.add, Core.add, e]
      have hkindlt : ∀ x, x < d.reg.next → (d.add (makeObj name (globs S.env targets)) .fileset).kind x = d.kind x := by
        intro x hx
        have : x ≠ d.reg.next := by omega
        simp [MReg.add, this]
      refine ⟨⟨hg2, ⟨hr1.nostar, hr1.there, hr1.apart, ?_, ?_, ?_, ?_⟩,
        hf1.trans (follows_add hg1 hslot) hg.wf hg1.wf, ?_⟩, ⟨d.reg.next, add_self (ob := makeObj name _),
          by simp [World.addTo, MReg.add], by simp [World.addTo, MReg.add, Core.add]⟩, by simp⟩
      · intro f hf b hb
        change (d.add _ _).kind b = _ at hb
        obtain ⟨h1, h2⟩ := hold b (by rw [hb]; simp)
        show ¬ IsAnc _ ((d.add _ _).reg.obj b).tgt
        rw [h2]
        exact hr1.notdir f hf b (h1 ▸ hb)
      · intro f hf x hx
        have := hback f x (hname f hf) hx
        show FileLike ((d.add _ _).kind x)
        rw [hkindlt x (hg1.wf _ _ this)]
        exact hr1.known f hf x this
      · intro r hr' x hx
        show (d.add _ _).kind x ≠ .other
        by_cases e : x = d.reg.next
        · subst e; simp [MReg.add]
        · have hx' : Resolves S.env.canon d.reg r x := by
            change Resolves S.env.canon (d.add (makeObj name (globs S.env targets)) .fileset).reg r x at hx
            unfold Resolves at hx ⊢
            rw [get_add, get_add] at hx
            rcases hx with hx | ⟨h1, h2⟩
            · left
              split at hx
              · cases hx; exact absurd rfl e
              · exact hx
            · right
              constructor
              · split at h1
                · cases h1
                · exact h1
              · split at h2
                · cases h2; exact absurd rfl e
                · exact h2
          rw [hkindlt x (hg1.wf _ _ hx')]
          exact hr1.knownA r hr' x hx'
      · intro f hf
        refine ⟨?_, ?_⟩
        · intro a q ha hq
          change FileLike ((d.add _ _).kind a) at ha
          obtain ⟨h1, h2⟩ := hold a (fileLike_ne ha).2.1
          show ¬ IsAnc ((d.add _ _).reg.obj a).tgt q
          rw [h2]
          exact (hr1.clear f hf).nofile a q (h1 ▸ ha) hq
        · intro i o hx hres
          have hne : S.env.canon (anc (S.env.canon f) i) ≠ S.env.canon name :=
            fun e => hdir f hf ⟨i, hx, e.symm⟩
          have hres' : Resolves S.env.canon d.reg (anc (S.env.canon f) i) o ∨
              Resolves S.env.canon d.reg (S.env.canon (anc (S.env.canon f) i)) o := by
            rcases hres with h | h
            · exact Or.inl (hback _ o hne h)
            · exact Or.inr (hback _ o (by rw [hE.idem]; exact hne) h)
          show (d.add _ _).kind o = .dir
          rw [hkindlt o (by rcases hres' with h | h <;> exact hg1.wf _ _ h)]
          exact (hr1.clear f hf).taken i o hx hres'
      · intro p hp hfp hn m o hm hres
        have h1 := hback m o (by rw [hm]; exact hn) hres
        rcases hk.new _ _ h1 with h | ⟨h2, h3, h4⟩
        · exact hfp m o hm h
        · obtain ⟨_, r, hr', he⟩ := hk.fresh o h2 h3
          rw [he] at h4
          change S.env.canon r = _ at h4
          rw [hm] at h4
          obtain ⟨y, hy⟩ := (htg r hr').2
          exact hfp r y h4 hy

/-- the paths that are registered for the pairs `l` of an input and an output, with the additional dependencies `adddeps` -/
def PairPaths (S : Site) (l : List (String × String)) (adddeps : List String) (q : String) : Prop :=
  (∃ m ∈ l, q = S.env.canon m.1 ∨ q = S.env.canon m.2) ∨
  ∃ r ∈ globs S.env adddeps, S.env.ex r = true ∧ q = S.env.canon r

/-- the registry has a target that makes `m.2` from `m.1` -/
def Made (S : Site) (L : LReg) (adddeps : List String) (m : String × String) : Prop :=
  ∃ x z, Resolves S.env.canon L.m.reg m.2 x ∧ L.m.kind x = .file ∧
    L.m.reg.obj x = madeFrom S.env m.2 ([m.1] ++ adddeps) ∧
    Resolves S.env.canon L.m.reg m.1 z ∧ FileLike (L.m.kind z)

theorem _root_.Licant.Make.Follows.stays {c c' : MReg} (h : Follows E c c') (hw : Wf E.canon c) {n : String} {o : Nat}
    (hr : Resolves E.canon c.reg n o) (hk : c.kind o ≠ .dir) :
    Resolves E.canon c'.reg n o ∧ c'.kind o = c.kind o ∧ c'.reg.obj o = c.reg.obj o := by
  obtain ⟨h1, h2⟩ := h.2.1 o (hw _ _ hr)
  obtain ⟨o', h3, rfl | ⟨h4, _⟩⟩ := h.2.2 n o hr
  · exact ⟨h3, h2, h1⟩
  · exact absurd h4 hk

theorem Made.follow {L L' : LReg} {adddeps : List String} {m : String × String} (h : Made S L adddeps m)
    (hw : Wf S.env.canon L.m) (hf : Follows S.env L.m L'.m) : Made S L' adddeps m := by
  obtain ⟨x, z, h1, h2, h3, h4, h5⟩ := h
  obtain ⟨e1, e2, e3⟩ := hf.stays hw h1 (by rw [h2]; simp)
  obtain ⟨f1, f2, _⟩ := hf.stays hw h4 (fileLike_ne h5).1
  exact ⟨x, z, e1, by rw [e2]; exact h2, by rw [e3]; exact h3, f1, by rw [f2]; exact h5⟩

theorem Made.resolves {L : LReg} {adddeps : List String} {m : String × String} (h : Made S L adddeps m) :
    ∃ o, Resolves S.env.canon L.m.reg m.2 o := by
  obtain ⟨x, _, h1, _⟩ := h
  exact ⟨x, h1⟩

/-- Pairs of inputs and outputs that can be made of the files `F` and `A`. -/
structure PairsFit (S : Site) (l : List (String × String)) (adddeps F A : List String) : Prop where
  files : ∀ m ∈ l, m.1 ∈ F ∧ m.2 ∈ F
  there : ∀ r ∈ globs S.env adddeps, S.env.ex r = true → r ∈ F ++ A
  outputs : (l.map fun m => S.env.canon m.2).Nodup
  apart : ∀ m ∈ l, ∀ n ∈ l, S.env.canon m.1 ≠ S.env.canon n.2
  adds : ∀ m ∈ l, ∀ r ∈ globs S.env adddeps, S.env.canon r ≠ S.env.canon m.2

theorem PairsFit.tail {m : String × String} {l : List (String × String)} {adddeps : List String}
    (h : PairsFit S (m :: l) adddeps F A) : PairsFit S l adddeps F A :=
  ⟨fun n hn => h.files n (by simp [hn]), h.there, (List.nodup_cons.1 h.outputs).2,
    fun n hn k hk => h.apart n (by simp [hn]) k (by simp [hk]), fun n hn => h.adds n (by simp [hn])⟩

/-- an input and an output made of it -/
theorem pair_stage (hE : S.env.Sane) {L L1 L' : LReg} {m : String × String} {l : List (String × String)}
    {adddeps : List String} {f : Bool} {cmd : String → Except Modules.Err String}
    (hP : PairsFit S (m :: l) adddeps F A) (hg : GoodD S.env L.m) (hr : Room S.env L.m F A) (hf : Free S.env L.m m.2)
    (hadd : ∀ r ∈ globs S.env adddeps, Leads S.env L.m r ∨ r ∈ A)
    (h1 : addSource S L m.1 = .ok L1) (h : addFile S L1 m.2 ([m.1] ++ adddeps) f cmd = .ok L') :
    Stage S F A L L' (PairPaths S [m] adddeps) ∧ Made S L' adddeps m := by
  obtain ⟨hF1, hF2⟩ := hP.files m (by simp)
  have hne := hP.apart m (by simp) m (by simp)
  obtain ⟨hs1, hres⟩ := addSource_stage hE hg hr hF1 h1
  have hglob : ∀ r ∈ globs S.env ([m.1] ++ adddeps), r = m.1 ∨ r ∈ globs S.env adddeps := by
    intro r hr'
    rw [globs_append, List.mem_append] at hr'
    refine hr'.imp (fun h => ?_) id
    have := mem_globs_nostar (by simpa using (hr.nostar _ hF1).1) h
    simpa using this
  have hfree := hs1.free m.2 hF2 hf (fun e => hne e.symm)
  have hdeps : ∀ r ∈ globs S.env ([m.1] ++ adddeps), S.env.canon r ≠ S.env.canon m.2 ∧
      (Leads S.env L1.m r ∨ r ∈ A) ∧ (S.env.ex r = true → r ∈ F ++ A) := by
    intro r hr'
    rcases hglob r hr' with rfl | h
    · exact ⟨hne, Or.inl hres, fun _ => by simp [hF1]⟩
    · exact ⟨hP.adds m (by simp) r h, (hadd r h).imp (fun h => hs1.follows.leads hg.wf h) id, hP.there r h⟩
  have hs2 := addFile_stage hE hs1.good hs1.room hF2 hfree hdeps h
  obtain ⟨_, x, _, _, hn, _, _, hob, hkd, _⟩ := addFile_keeps hE (hr.nostar _ hF2).2 (hr.self hF2 hF2) hfree
    (fun r hr' _ => (hdeps r hr').1) h
  obtain ⟨z, hz, _⟩ := hs2.follows.leads hs1.good.wf hres
  refine ⟨Stage.trans hg (hs1.mono ?_) (hs2.mono ?_), x, z, hn _ rfl, hkd, hob, hz, hs2.room.known _ hF1 z hz⟩
  · rintro q rfl
    exact Or.inl ⟨m, by simp, Or.inl rfl⟩
  · rintro q (rfl | ⟨r, hr', hx, rfl⟩)
    · exact Or.inl ⟨m, by simp, Or.inr rfl⟩
    · rcases hglob r hr' with rfl | h
      · exact Or.inl ⟨m, by simp, Or.inl rfl⟩
      · exact Or.inr ⟨r, h, hx, rfl⟩

/-- many pairs -/
theorem pairs_stage (hE : S.env.Sane) {adddeps : List String} (cmd : String × String → String → Except Modules.Err String) :
    ∀ (l : List (String × String)) {L L' : LReg}, PairsFit S l adddeps F A → GoodD S.env L.m → Room S.env L.m F A →
    (∀ m ∈ l, Free S.env L.m m.2) → (∀ r ∈ globs S.env adddeps, Leads S.env L.m r ∨ r ∈ A) →
    l.foldlM (fun L m => do
      let L ← addSource S L m.1
      addFile S L m.2 ([m.1] ++ adddeps) false (cmd m)) L = .ok L' →
    Stage S F A L L' (PairPaths S l adddeps) ∧ ∀ m ∈ l, Made S L' adddeps m := by
  intro l
  induction l with
  | nil =>
    intro L L' _ hg hr _ _ h
    cases h
    exact ⟨.refl hg hr, by simp⟩
  | cons m l ih =>
    intro L L' hP hg hr hfree hadd h
    simp only [List.foldlM_cons, bind, Except.bind] at h
    split at h
    · cases h
    · rename_i L2 h2
      split at h2
      · cases h2
      · rename_i L1 h1
        obtain ⟨hs1, hres1⟩ := pair_stage hE hP hg hr (hfree m (by simp)) hadd h1 h2
        obtain ⟨hs2, hres⟩ := ih hP.tail hs1.good hs1.room (by
          intro n hn
          refine hs1.free n.2 (hP.files n (by simp [hn])).2 (hfree n (by simp [hn])) ?_
          rintro (⟨k, hk, he⟩ | ⟨r, hr', _, he⟩)
          · rw [List.mem_singleton] at hk
            subst hk
            rcases he with he | he
            · exact hP.apart k (by simp) n (by simp [hn]) he.symm
            · exact (List.nodup_cons.1 hP.outputs).1 (List.mem_map.2 ⟨n, hn, he⟩)
          · exact hP.adds n (by simp [hn]) r hr' he.symm)
          (fun r hr' => (hadd r hr').imp (fun h => hs1.follows.leads hg.wf h) id) h
        refine ⟨Stage.trans hg (hs1.mono ?_) (hs2.mono ?_), ?_⟩
        · rintro q (⟨k, hk, he⟩ | h)
          · rw [List.mem_singleton] at hk
            subst hk
            exact Or.inl ⟨k, by simp, he⟩
          · exact Or.inr h
        · rintro q (⟨k, hk, he⟩ | h)
          · exact Or.inl ⟨k, by simp [hk], he⟩
          · exact Or.inr h
        · intro k hk
          rcases List.mem_cons.1 hk with rfl | hk
          · exact hres1.follow hs1.good.wf hs2.follows
          · exact hres k hk

/-- copies of headers; they are registered like other pairs, but the source is registered twice -/
theorem copies_stage (hE : S.env.Sane) : ∀ (l : List (String × String)) {L L' : LReg}, PairsFit S l [] F A →
    (∀ m ∈ l, S.env.home m.1 = m.1 ∧ S.env.home m.2 = m.2) → GoodD S.env L.m → Room S.env L.m F A →
    (∀ m ∈ l, Free S.env L.m m.2) →
    l.foldlM (fun L m => do
      let L ← addSource S L m.1
      addCopy S L m.1 m.2) L = .ok L' →
    Stage S F A L L' (PairPaths S l []) ∧ ∀ m ∈ l, Made S L' [] m := by
  intro l
  induction l with
  | nil =>
    intro L L' _ _ hg hr _ h
    cases h
    exact ⟨.refl hg hr, by simp⟩
  | cons m l ih =>
    intro L L' hP hh hg hr hfree h
    simp only [List.foldlM_cons, bind, Except.bind] at h
    split at h
    · cases h
    · rename_i L3 h3
      split at h3
      · cases h3
      · rename_i L1 h1
        unfold addCopy at h3
        simp only [bind, Except.bind, (hh m (by simp)).1, (hh m (by simp)).2] at h3
        split at h3
        · cases h3
        · rename_i L2 h2
          obtain ⟨hF1, hF2⟩ := hP.files m (by simp)
          obtain ⟨hs0, _⟩ := addSource_stage hE hg hr hF1 h1
          have hfree1 : ∀ n ∈ m :: l, Free S.env L1.m n.2 := fun n hn =>
            hs0.free n.2 (hP.files n hn).2 (hfree n hn) fun e => hP.apart m (by simp) n hn e.symm
          obtain ⟨hs1, hres1⟩ := pair_stage hE hP hs0.good hs0.room (hfree1 m (by simp)) (by intro r hr'; cases hr') h2 (by
            simpa using h3)
          obtain ⟨hs2, hres⟩ := ih hP.tail (fun n hn => hh n (by simp [hn])) hs1.good hs1.room (by
            intro n hn
            refine hs1.free n.2 (hP.files n (by simp [hn])).2 (hfree1 n (by simp [hn])) ?_
            rintro (⟨k, hk, he⟩ | ⟨r, hr', _, he⟩)
            · rw [List.mem_singleton] at hk
              subst hk
              rcases he with he | he
              · exact hP.apart k (by simp) n (by simp [hn]) he.symm
              · exact (List.nodup_cons.1 hP.outputs).1 (List.mem_map.2 ⟨n, hn, he⟩)
            · cases hr') h
          refine ⟨Stage.trans hg (hs0.mono ?_) (Stage.trans hs0.good (hs1.mono ?_) (hs2.mono ?_)), ?_⟩
          · rintro q rfl
            exact Or.inl ⟨m, by simp, Or.inl rfl⟩
          · rintro q (⟨k, hk, he⟩ | h)
            · rw [List.mem_singleton] at hk
              subst hk
              exact Or.inl ⟨k, by simp, he⟩
            · exact Or.inr h
          · rintro q (⟨k, hk, he⟩ | h)
            · exact Or.inl ⟨k, by simp [hk], he⟩
            · exact Or.inr h
          · intro k hk
            rcases List.mem_cons.1 hk with rfl | hk
            · exact hres1.follow hs1.good.wf hs2.follows
            · exact hres k hk

end Licant.Cxx
