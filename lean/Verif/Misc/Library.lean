/-
Model of `install_library` of `licant/install.py`.
C114: the set it registers consists of the headers and the libraries, each copied to its place.
-/
import Verif.Misc.Headers

set_option autoImplicit false

namespace Licant.Misc.Library
open Licant.Py Licant.Py.Path Licant.Core Licant.Make Licant.Make.Fs Licant.Misc.Glob Licant.Misc.Install Licant.Misc.Headers
  Licant.Cxx

/-! ### model -/

/-- install.py:123 the argument `libtgt`: `None`, one path or a list of paths -/
inductive LibTgt where
  | none
  | one (l : String)
  | list (ls : List String)

/-- install.py:128-143 the libraries of the argument, in order (the two loops; `deps` is this list) -/
def LibTgt.libs : LibTgt → List String
  | .none => []
  | .one l => [l]
  | .list ls => ls

/-- install.py:148 the truth value of the argument -/
def LibTgt.truthy : LibTgt → Bool
  | .none => false
  | .one l => l != ""
  | .list ls => !ls.isEmpty

/-- install.py:131-132, 134 `ltgt.append(install_shared_library(l))`.  (It returns `None` only with the error flag, which
has been tested before.) -/
def libStep (E : Env) (lim : Nat) (D : Dirs) (x : World × List String) (l : String) : Except Err (World × List String) :=
  match installSharedLibrary E lim D x.1 l none with
  | .error e => .error e
  | .ok (w, t) => .ok (w, x.2 ++ t.toList)

/-- install.py:127-134 the first loop, and the list `ltgt` -/
def installLibs (E : Env) (lim : Nat) (D : Dirs) (w : World) (libs : List String) : Except Err (World × List String) :=
  libs.foldlM (libStep E lim D) (w, [])

/-- install.py:155-163 the target `uninstall`: a `MakeFileTarget` (its name is not replaced by a canonical path) -/
def uninstallObj (name : String) (weak : List String) : Obj := ⟨name, [], true, weak, "makefile"⟩

/-- install.py:150-163 -/
def addUninstall (w : World) (uninstall : Option String) (weak : List String) : World :=
  match uninstall with
  | some u => { w with dflt := w.dflt.add (uninstallObj u weak) .other }
  | none => w

/-- install.py:123-165 `install_library`.  The second component is `false` if the function returns `None`.  `uninstall` is
`none` for `None` and for the empty string. -/
def installLibrary {T : Tree} {cwd : List Str} (V : View T cwd) (E : Env) (lim : Nat) (D : Dirs) (w : World) (tgt : String)
    (hroot headers : Str) (patterns : List Str) (uninstall : Option String) (libtgt : LibTgt) : Except Err (World × Bool) :=
  if D.error then .ok (w, false)
  else
    match installLibs E lim D w libtgt.libs with
    | .error e => .error e
    | .ok (w, ltgt) =>
      match installHeaders V E lim D w hroot headers patterns libtgt.libs with
      | .error e => .error e
      | .ok (w, htgt, rawtgts) =>
        let tgts := if libtgt.truthy then [htgt] ++ ltgt else [htgt]
        match filesetG E lim (addUninstall w uninstall (rawtgts ++ ltgt)) tgt tgts [] false with
        | .error e => .error e
        | .ok w => .ok (w, true)

/-! ### specification -/

/-- where a library goes -/
def libDest (D : Dirs) (l : String) : String := String.ofList (join D.libraries (basename l.toList))

/-- the paths of the files to be made: the installed libraries and headers -/
def Made (T : Tree) (D : Dirs) (q B : List Str) (patterns : List Str) (libs : List String) (p : String) : Prop :=
  (∃ l ∈ libs, p = libDest D l) ∨ ∃ ds f, Header T q patterns ds f ∧ p = pathOf (B ++ ds ++ [f])

/-- the paths of the files that are copied: the libraries and the headers below `A` -/
def Given (T : Tree) (E : Env) (A : Str) (q : List Str) (patterns : List Str) (libs : List String) (p : String) : Prop :=
  (∃ l ∈ libs, p = E.canon (E.home l)) ∨
    ∃ ds f, Header T q patterns ds f ∧ p = E.canon (String.ofList (Glob.below A (ds ++ [f])))

/-! ### what stays registered -/

/-- objects stay, and so do the names with `P` -/
structure Stays (canon : String → String) (c c' : MReg) (P : String → Prop) : Prop where
  next : c.reg.next ≤ c'.reg.next
  obj : ∀ o, o < c.reg.next → c'.reg.obj o = c.reg.obj o ∧ c'.kind o = c.kind o
  keep : ∀ n o, P n → Resolves canon c.reg n o → Resolves canon c'.reg n o

theorem Stays.trans {canon : String → String} {a b c : MReg} {P : String → Prop} (h : Stays canon a b P)
    (h' : Stays canon b c P) : Stays canon a c P :=
  ⟨le_trans h.next h'.next,
    fun o ho => ⟨(h'.obj o (lt_of_lt_of_le ho h.next)).1.trans (h.obj o ho).1,
      (h'.obj o (lt_of_lt_of_le ho h.next)).2.trans (h.obj o ho).2⟩,
    fun n o hp hr => h'.keep n o hp (h.keep n o hp hr)⟩

theorem Stays.mono {canon : String → String} {a b : MReg} {P Q : String → Prop} (h : Stays canon a b P)
    (hp : ∀ n, Q n → P n) : Stays canon a b Q :=
  ⟨h.next, h.obj, fun n o hn => h.keep n o (hp n hn)⟩

theorem Keeps.stays {canon : String → String} {c c' : MReg} {D : String → Prop} {T : Obj → Kind → Prop}
    (h : Keeps canon c c' D T) : Stays canon c c' fun n => ¬ D (canon n) :=
  ⟨h.next, h.obj, fun n o hn hr => h.keep n o hr hn⟩

theorem stays_add {canon : String → String} (c : MReg) (ob : Obj) (k : Kind) :
    Stays canon c (c.add ob k) fun n => n ≠ ob.tgt ∧ canon n ≠ ob.tgt := by
  refine ⟨by simp [MReg.add, Core.add], fun o ho => ?_, fun n o hn hr => add_other hn.1 hn.2 hr⟩
  have : o ≠ c.reg.next := by omega
  simp [MReg.add, Core.add, this]

section
variable {E : Env} {lim : Nat}

theorem Stays.copied {c c' : MReg} {P : String → Prop} {ad : List String} {d s : String} (h : Stays E.canon c c' P)
    (hd : P d) (hs : P s) (hc : Copied E ad c d s) : Copied E ad c' d s := by
  obtain ⟨⟨o, h1, h2, h3, h4, h5⟩, o', h6⟩ := hc
  refine ⟨⟨o, h.keep _ _ hd h1, lt_of_lt_of_le h2 h.next, ?_, ?_, ?_⟩, o', h.keep _ _ hs h6⟩
  · rw [(h.obj o h2).2]; exact h3
  · rw [(h.obj o h2).1]; exact h4
  · rw [(h.obj o h2).1]; exact h5

/-- one copy, of a file that need not exist yet -/
theorem copyG_step (hE : E.Sane) {w w' : World} {dest src : String} {ad : List String} (hhd : E.home dest = dest)
    (hc : E.canon dest = dest) (hs : NoStar E (E.home src)) (hsd : NoStar E dest)
    (hself : ¬ MissingDir E (E.canon (E.home src)) (E.canon (E.home src)))
    (h : copyG E lim w dest src ad false = .ok w') :
    Stays E.canon w.dflt w'.dflt (fun n => ¬ MissingDir E (E.canon (E.home src)) (E.canon n) ∧
      ¬ MissingDir E dest (E.canon n) ∧ E.canon n ≠ dest) ∧
    (E.canon (E.home src) ≠ dest → ¬ MissingDir E dest (E.canon (E.home src)) → Copied E ad w'.dflt dest (E.home src)) := by
  unfold copyG at h
  simp only [hhd] at h
  generalize E.home src = src at *
  split at h
  · cases h
  rename_i d1 h1
  obtain ⟨hk1, o1, ho1⟩ := sourceG_keeps hE hs hself h1
  unfold makefileG at h
  split at h
  · cases h
  rename_i d2 t ds h2
  simp only [World.addTo, Bool.false_eq_true, if_false, Except.ok.injEq] at h
  subst h
  obtain ⟨rfl, rfl, hk2⟩ := fileInit_keeps hE _ _ _ _ _ _ _ _ hsd h2
  rw [hc] at hk2
  have hk3 := keeps_add d2 (ob := makeObj (E.canon dest) (globs E (src :: ad) ++ dirDep E true (E.canon dest))) .file
    (by exact hE.idem dest)
  have hmem : ∀ a ∈ src :: ad, '*' ∉ a.toList → a ∈ globs E (src :: ad) ++ dirDep E true (E.canon dest) := by
    intro a ha hs
    refine List.mem_append.2 (Or.inl (List.mem_flatMap.2 ⟨a, ha, ?_⟩))
    rw [if_neg hs]
    exact List.mem_singleton.2 rfl
  rw [hc] at hk3 hmem ⊢
  constructor
  · refine (Keeps.stays hk1).mono (fun n hn => hn.1) |>.trans ?_
    exact ((Keeps.stays hk2).mono fun n hn => hn.2.1).trans ((Keeps.stays hk3).mono fun n hn => hn.2.2)
  · intro hne hm
    refine ⟨⟨d2.reg.next, add_self, ?_, ?_, ?_, ?_⟩, o1, hk3.keep _ _ (hk2.keep _ _ ho1 hm) hne⟩
    · simp [MReg.add, Core.add]
    · simp [MReg.add]
    · simp [MReg.add, Core.add, makeObj]
    · intro a ha hs
      have := hmem a ha hs
      simpa [MReg.add, Core.add, makeObj] using this

/-- the names that a copy leaves alone -/
def Apart (E : Env) (dest src n : String) : Prop :=
  ¬ MissingDir E (E.canon (E.home src)) (E.canon n) ∧ ¬ MissingDir E dest (E.canon n) ∧ E.canon n ≠ dest

/-- several copies -/
theorem copies_stay (hE : E.Sane) {α : Type} {ad : List String} (dest src : α → String) : ∀ (l : List α) (w w' : World),
    (∀ x ∈ l, E.home (dest x) = dest x ∧ E.canon (dest x) = dest x ∧ NoStar E (E.home (src x)) ∧ NoStar E (dest x) ∧
      ¬ MissingDir E (E.canon (E.home (src x))) (E.canon (E.home (src x)))) →
    l.foldlM (fun w x => copyG E lim w (dest x) (src x) ad false) w = .ok w' →
    Stays E.canon w.dflt w'.dflt (fun n => ∀ x ∈ l, Apart E (dest x) (src x) n) := by
  intro l
  induction l with
  | nil => intro w w' _ h; cases h; exact ⟨le_refl _, fun _ _ => ⟨rfl, rfl⟩, fun _ _ _ h => h⟩
  | cons x l ih =>
    intro w w' hl h
    simp only [List.foldlM_cons, bind, Except.bind] at h
    split at h
    · cases h
    rename_i w1 h1
    obtain ⟨a1, a2, a3, a4, a5⟩ := hl x (by simp)
    refine ((copyG_step hE a1 a2 a3 a4 a5 h1).1.mono fun n hn => hn x (by simp)).trans ?_
    exact (ih w1 w' (fun y hy => hl y (by simp [hy])) h).mono fun n hn y hy => hn y (by simp [hy])

/-! ### the libraries -/

/-- a library that can be installed at `libDest` -/
structure LibFine (E : Env) (D : Dirs) (l : String) : Prop where
  home : E.home (libDest D l) = libDest D l
  canon : E.canon (libDest D l) = libDest D l
  nostar : NoStar E (E.home l)
  nostarD : NoStar E (libDest D l)

theorem installLibs_ok (hE : E.Sane) {D : Dirs} (he : D.error = false) {w w' : World} {libs ltgt : List String}
    (hf : ∀ l ∈ libs, LibFine E D l)
    (hsep : ∀ l ∈ libs, ∀ l' ∈ libs, E.canon (E.home l) ≠ libDest D l')
    (hss : ∀ l ∈ libs, ∀ l' ∈ libs, ¬ MissingDir E (E.canon (E.home l)) (E.canon (E.home l')))
    (hsd : ∀ l ∈ libs, ∀ l' ∈ libs, ¬ MissingDir E (E.canon (E.home l)) (libDest D l'))
    (hds : ∀ l ∈ libs, ∀ l' ∈ libs, ¬ MissingDir E (libDest D l) (E.canon (E.home l')))
    (hdd : ∀ l ∈ libs, ∀ l' ∈ libs, ¬ MissingDir E (libDest D l) (libDest D l'))
    (hinj : ∀ l ∈ libs, ∀ l' ∈ libs, libDest D l = libDest D l' → l = l')
    (h : installLibs E lim D w libs = .ok (w', ltgt)) :
    ltgt = libs.map (libDest D) ∧
    (∀ l ∈ libs, Copied E [] w'.dflt (libDest D l) (E.home l)) ∧
    Stays E.canon w.dflt w'.dflt (fun n => ∀ l ∈ libs, Apart E (libDest D l) l n) := by
  have key : ∀ (rest : List String) (w : World) (acc : List String), (∀ l ∈ rest, l ∈ libs) →
      rest.foldlM (libStep E lim D) (w, acc) = .ok (w', ltgt) →
      ltgt = acc ++ rest.map (libDest D) ∧
      (∀ l ∈ rest, Copied E [] w'.dflt (libDest D l) (E.home l)) ∧
      Stays E.canon w.dflt w'.dflt (fun n => ∀ l ∈ rest, Apart E (libDest D l) l n) := by
    intro rest
    induction rest with
    | nil =>
      intro w acc _ h
      cases h
      exact ⟨by simp, by simp, le_refl _, fun _ _ => ⟨rfl, rfl⟩, fun _ _ _ h => h⟩
    | cons x rest ih =>
      intro w acc hsub h
      simp only [List.foldlM_cons, bind, Except.bind] at h
      split at h
      · cases h
      rename_i v hv
      unfold libStep at hv
      split at hv
      · cases hv
      rename_i w1 t ht
      cases hv
      simp only [installSharedLibrary, he, Bool.false_eq_true, if_false] at ht
      split at ht
      · cases ht
      rename_i w2 hw2
      cases ht
      have hx := hsub x (by simp)
      obtain ⟨s1, s2⟩ := copyG_step (lim := lim) hE (hf x hx).home (hf x hx).canon (hf x hx).nostar (hf x hx).nostarD
        (hss x hx x hx) hw2
      obtain ⟨e, i1, i2⟩ := ih _ _ (fun l hl => hsub l (by simp [hl])) h
      refine ⟨?_, ?_, ?_⟩
      · rw [e, List.map_cons]; simp [libDest]
      · intro l hl
        by_cases hr : l ∈ rest
        · exact i1 l hr
        · have hl : l = x := by simpa [hr] using hl
          subst hl
          refine i2.copied ?_ ?_ (s2 (hsep l hx l hx) (hds l hx l hx))
          · intro y hy
            have hy' := hsub y (by simp [hy])
            unfold Apart
            rw [(hf l hx).canon]
            exact ⟨hsd y hy' l hx, hdd y hy' l hx, fun e => hr (hinj l hx y hy' e ▸ hy)⟩
          · intro y hy
            have hy' := hsub y (by simp [hy])
            exact ⟨hss y hy' l hx, hds y hy' l hx, hsep l hx y hy'⟩
      · exact (s1.mono fun n hn => hn x (by simp)).trans (i2.mono fun n hn l hl => hn l (by simp [hl]))
  have := key libs w [] (fun _ h => h) h
  simpa using this

/-! ### the rest -/

theorem filesetG_ok (hE : E.Sane) {w w' : World} {tgt : String} {targets : List String} (hs : ∀ t ∈ targets, '*' ∉ t.toList)
    (h : filesetG E lim w tgt targets [] false = .ok w') :
    Stays E.canon w.dflt w'.dflt (fun n => n ≠ tgt ∧ E.canon n ≠ tgt) ∧
    ∃ o, w'.dflt.reg.targets.get tgt = some o ∧ o < w'.dflt.reg.next ∧ w'.dflt.kind o = .fileset ∧
      (w'.dflt.reg.obj o).deps = targets := by
  unfold filesetG at h
  rw [List.nil_append, globs_id hs] at h
  simp only at h
  split at h
  · cases h
  rename_i d3 hd3
  simp only [World.addTo, Bool.false_eq_true, if_false, Except.ok.injEq] at h
  subst h
  have hk := keeps_sources hE _ _ _ (fun _ _ => True) (fun _ _ _ => trivial) hd3
  refine ⟨((Keeps.stays hk).mono fun n _ h => h).trans (stays_add d3 (makeObj tgt targets) .fileset), d3.reg.next, ?_, ?_, ?_, ?_⟩
  · simp [MReg.add, Core.add, makeObj]
  · simp [MReg.add, Core.add]
  · simp [MReg.add]
  · simp [MReg.add, Core.add, makeObj]

end

section
variable {T : Tree} {cwd : List Str} {E : Env}

/-- what `install_headers` leaves alone -/
theorem installHeaders_stay (V : View T cwd) {lim : Nat} {D : Dirs} {w w' : World} {tgtdir srcdir : Str} {patterns : List Str}
    {adddeps targets : List String} {full : String} {B q : List Str}
    (hr : Realises T cwd E) (hT : NoDangling T) (hcwd : T.get cwd = some .dir)
    (hh : ∀ p : Str, isabs p = true → E.home (String.ofList p) = String.ofList p)
    (ho : Opens T cwd (abspath (absPath cwd) srcdir) q)
    (hB : join D.headers tgtdir = absPath B)
    (hsolid : ∀ ds f, Header T q patterns ds f → Solid T (B ++ ds ++ [f]))
    (hstar : ∀ ds f, Header T q patterns ds f → '*' ∉ (pathOf (B ++ ds ++ [f])).toList ∧
      '*' ∉ (E.canon (String.ofList (Glob.below (abspath (absPath cwd) srcdir) (ds ++ [f])))).toList)
    (h : installHeaders V E lim D w tgtdir srcdir patterns adddeps = .ok (w', full, targets)) :
    Stays E.canon w.dflt w'.dflt (fun n => n ≠ full ∧ E.canon n ≠ full ∧ ∀ ds f, Header T q patterns ds f →
      ¬ MissingDir E (pathOf (B ++ ds ++ [f])) (E.canon n) ∧ E.canon n ≠ pathOf (B ++ ds ++ [f])) ∧
    full = "headers://" ++ String.ofList (abspath (absPath cwd) srcdir) ∧
    ∃ o, w'.dflt.reg.targets.get full = some o ∧ o < w'.dflt.reg.next ∧ w'.dflt.kind o = .fileset ∧
      (w'.dflt.reg.obj o).deps = targets := by
  have hE := hr.sane hT hcwd
  obtain ⟨hAabs, hAnorm, hAA⟩ := abspath_abs (cwd := cwd) srcdir
  generalize hA : abspath (absPath cwd) srcdir = A at *
  unfold installHeaders at h
  simp only [hA, hAA] at h
  split at h
  · cases h
  rename_i lsts hl
  have hfa := forall₂_mem (mapM_some hl)
  generalize hhs : lsts.flatten = hs at h
  have hmem : ∀ x ∈ hs, ∃ ds f, Header T q patterns ds f ∧ x = Glob.below A (ds ++ [f]) := by
    intro x
    rw [← hhs, List.mem_flatten]
    rintro ⟨l, hl, hx⟩
    obtain ⟨p, hp, hg⟩ := hfa.1 l hl
    obtain ⟨ds, f, h1, h2, h3⟩ := (((C105_exact V hg).1 q ho).1 x).1 hx
    exact ⟨ds, f, ⟨h1, p, hp, h2⟩, h3⟩
  have hdest : ∀ ds f, Header T q patterns ds f →
      String.ofList (join (join D.headers tgtdir) (relpath (absPath cwd) (Glob.below A (ds ++ [f])) A)) =
        pathOf (B ++ ds ++ [f]) := by
    intro ds f hf
    rw [hB, relpath_below hAabs hAnorm (by simp) hf.1.plain, join_absPath
      (fun x hx => (hsolid ds f hf).plain x (by simp [hx])) (by simp) hf.1.plain, List.append_assoc]
    rfl
  obtain ⟨dest, hdd⟩ : ∃ dest : Str → String, ∀ h, String.ofList (join (join D.headers tgtdir) (relpath (absPath cwd) h A)) =
    dest h := ⟨_, fun _ => rfl⟩
  simp only [hdd] at h
  have hdest' : ∀ ds f, Header T q patterns ds f → dest (Glob.below A (ds ++ [f])) = pathOf (B ++ ds ++ [f]) := by
    intro ds f hf
    rw [← hdd]
    exact hdest ds f hf
  have hhome : ∀ ds f, E.home (pathOf (B ++ ds ++ [f])) = pathOf (B ++ ds ++ [f]) := fun ds f => hh _ (by simp [absPath, isabs])
  split at h
  · cases h
  rename_i d hd
  split at h
  · cases h
  rename_i w1 hw1
  split at h
  · cases h
  rename_i w2 hw2
  simp only [Except.ok.injEq, Prod.mk.injEq] at h
  obtain ⟨rfl, rfl, rfl⟩ := h
  have hno : ∀ ds f, Header T q patterns ds f → ∀ p, ¬ MissingDir E (E.canon (String.ofList (Glob.below A (ds ++ [f])))) p :=
    fun ds f hf p => no_missingDir hE (ex_below hr hT ho hf.1)
  -- the sources
  have s1 : Stays E.canon w.dflt d (fun _ => True) := by
    have : ∀ (l : List Str) (d0 : MReg), (∀ x ∈ l, x ∈ hs) →
        l.foldlM (fun d h => sourceG E lim d (String.ofList h) []) d0 = .ok d → Stays E.canon d0 d (fun _ => True) := by
      intro l
      induction l with
      | nil => intro d0 _ h; cases h; exact ⟨le_refl _, fun _ _ => ⟨rfl, rfl⟩, fun _ _ _ h => h⟩
      | cons x l ih =>
        intro d0 hsub h
        simp only [List.foldlM_cons, bind, Except.bind] at h
        split at h
        · cases h
        rename_i d1 h1
        obtain ⟨ds, f, hf, rfl⟩ := hmem x (hsub x (by simp))
        obtain ⟨hk, -⟩ := sourceG_keeps hE ⟨(hstar ds f hf).2, fun p hp => (hno ds f hf p hp).elim⟩ (hno ds f hf _) h1
        exact ((Keeps.stays hk).mono fun n _ => hno ds f hf _).trans (ih d1 (fun y hy => hsub y (by simp [hy])) h)
    exact this hs _ (fun _ h => h) hd
  -- the copies
  have hsrc : ∀ ds f, Header T q patterns ds f → E.home (String.ofList (Glob.below A (ds ++ [f]))) =
      String.ofList (Glob.below A (ds ++ [f])) := fun ds f hf => hh _ (isabs_below hAabs hf.1.plain)
  have s2 := copies_stay (E := E) (lim := lim) hE (ad := adddeps) dest String.ofList hs _ _ (by
    intro x hx
    obtain ⟨ds, f, hf, rfl⟩ := hmem x hx
    rw [hdest' ds f hf, hsrc ds f hf]
    have hc : E.canon (pathOf (B ++ ds ++ [f])) = pathOf (B ++ ds ++ [f]) := hr.canon_abs (hsolid ds f hf)
    refine ⟨hhome ds f, hc, ⟨(hstar ds f hf).2, fun p hp => (hno ds f hf p hp).elim⟩,
      ⟨by rw [hc]; exact (hstar ds f hf).1, fun p hp => ?_⟩, hno ds f hf _⟩
    rw [hc] at hp
    obtain ⟨a, b, e, _, rfl⟩ := missingDir_pathOf hr (hsolid ds f hf) (by simp) hp
    have := (hstar ds f hf).1
    rw [e] at this
    exact nostar_pathOf this) hw1
  -- the set
  obtain ⟨s3, s4⟩ := filesetG_ok hE (by
    intro t ht
    obtain ⟨x, hx, rfl⟩ := List.mem_map.1 ht
    obtain ⟨ds, f, hf, rfl⟩ := hmem x hx
    rw [hdest' ds f hf, hhome]
    exact (hstar ds f hf).1) hw2
  refine ⟨(s1.mono fun _ _ => trivial).trans ((s2.mono ?_).trans (s3.mono fun n hn => ⟨hn.1, hn.2.1⟩)), rfl, s4⟩
  intro n hn x hx
  obtain ⟨ds, f, hf, rfl⟩ := hmem x hx
  unfold Apart
  rw [hdest' ds f hf, hsrc ds f hf]
  exact ⟨hno ds f hf _, hn.2.2 ds f hf⟩

/-! ### C114 -/

/-- **C114**.  `install_library(tgt, hroot, headers, patterns, uninstall, libtgt)` with `headers` leading to the directory
`q`: `tgt` becomes a set of the set of installed headers and the installed libraries.  The first one consists of all the files
to which a header goes.  Every header and every library is copied to its place, a header after the libraries, and
a library is still made by the target that made it before.  The target `uninstall` has all these files as weak dependencies.
It is supposed that no link is in the path to which something goes, that there are no stars in the paths, that nothing that
is copied is a file to be made, that no file to be made or to be copied is a missing directory of another one, that two
libraries, or a library and a header, do not go to the same path, and that the names of the targets are not those of
the files. -/
theorem C114_library (V : View T cwd) {lim : Nat} {D : Dirs} {w w' : World} {tgt : String} {hroot srcdir : Str}
    {patterns : List Str} {uninstall : Option String} {libtgt : LibTgt} {B q : List Str}
    (hr : Realises T cwd E) (hT : NoDangling T) (hcwd : T.get cwd = some .dir)
    (hh : ∀ p : Str, isabs p = true → E.home (String.ofList p) = String.ofList p)
    (he : D.error = false) (hne : libtgt.libs ≠ [""])
    (ho : Opens T cwd (abspath (absPath cwd) srcdir) q)
    (hB : join D.headers hroot = absPath B)
    (hsolid : ∀ ds f, Header T q patterns ds f → Solid T (B ++ ds ++ [f]))
    (hcanon : ∀ l ∈ libtgt.libs, E.canon (libDest D l) = libDest D l)
    (hstar : ∀ ds f, Header T q patterns ds f → '*' ∉ (pathOf (B ++ ds ++ [f])).toList ∧
      '*' ∉ (E.canon (String.ofList (Glob.below (abspath (absPath cwd) srcdir) (ds ++ [f])))).toList)
    (hstarA : '*' ∉ abspath (absPath cwd) srcdir)
    (hstarl : ∀ l ∈ libtgt.libs, NoStar E (E.home l) ∧ NoStar E (libDest D l))
    (hsep : ∀ p p', Given T E (abspath (absPath cwd) srcdir) q patterns libtgt.libs p →
      Made T D q B patterns libtgt.libs p' → p ≠ p')
    (hmiss : ∀ p p', Given T E (abspath (absPath cwd) srcdir) q patterns libtgt.libs p ∨ Made T D q B patterns libtgt.libs p →
      Given T E (abspath (absPath cwd) srcdir) q patterns libtgt.libs p' ∨ Made T D q B patterns libtgt.libs p' →
      ¬ MissingDir E p p')
    (hinj : ∀ l ∈ libtgt.libs, ∀ l' ∈ libtgt.libs, libDest D l = libDest D l' → l = l')
    (hlh : ∀ l ∈ libtgt.libs, ∀ ds f, Header T q patterns ds f → libDest D l ≠ pathOf (B ++ ds ++ [f]))
    (hnames : ∀ n, n = "headers://" ++ String.ofList (abspath (absPath cwd) srcdir) ∨
        (∃ l ∈ libtgt.libs, n = E.home l) ∨ Made T D q B patterns libtgt.libs n ∨
        (∃ ds f, Header T q patterns ds f ∧ n = String.ofList (Glob.below (abspath (absPath cwd) srcdir) (ds ++ [f]))) →
      ∀ t, t = tgt ∨ some t = uninstall → n ≠ t ∧ E.canon n ≠ t)
    (hfull : ∀ l ∈ libtgt.libs, E.home l ≠ "headers://" ++ String.ofList (abspath (absPath cwd) srcdir))
    (hut : ∀ u, uninstall = some u → u ≠ tgt ∧ E.canon u ≠ tgt)
    (h : installLibrary V E lim D w tgt hroot srcdir patterns uninstall libtgt = .ok (w', true)) :
    ∃ full targets,
      (∃ o, Resolves E.canon w'.dflt.reg tgt o ∧ w'.dflt.kind o = .fileset ∧
        (w'.dflt.reg.obj o).deps = full :: libtgt.libs.map (libDest D)) ∧
      (∃ o, Resolves E.canon w'.dflt.reg full o ∧ w'.dflt.kind o = .fileset ∧ (w'.dflt.reg.obj o).deps = targets) ∧
      (∀ t, t ∈ targets ↔ ∃ ds f, Header T q patterns ds f ∧ t = pathOf (B ++ ds ++ [f])) ∧
      (∀ ds f, Header T q patterns ds f → Copied E libtgt.libs w'.dflt (pathOf (B ++ ds ++ [f]))
        (String.ofList (Glob.below (abspath (absPath cwd) srcdir) (ds ++ [f])))) ∧
      (∀ l ∈ libtgt.libs, Copied E [] w'.dflt (libDest D l) (E.home l) ∧
        ∀ o, o < w.dflt.reg.next → Resolves E.canon w.dflt.reg (E.home l) o →
          Resolves E.canon w'.dflt.reg (E.home l) o ∧ w'.dflt.reg.obj o = w.dflt.reg.obj o ∧ w'.dflt.kind o = w.dflt.kind o) ∧
      ∀ u, uninstall = some u → ∃ o, Resolves E.canon w'.dflt.reg u o ∧ (w'.dflt.reg.obj o).deps = [] ∧
        (w'.dflt.reg.obj o).weakdeps = targets ++ libtgt.libs.map (libDest D) := by
  have hE := hr.sane hT hcwd
  have htruth : libtgt.truthy = !libtgt.libs.isEmpty := by
    cases libtgt with
    | none => rfl
    | one l =>
      have : l ≠ "" := fun e => hne (by rw [e]; rfl)
      simp [LibTgt.truthy, LibTgt.libs, this]
    | list ls => rfl
  unfold installLibrary at h
  rw [htruth] at h
  generalize libtgt.libs = libs at *
  simp only [he, Bool.false_eq_true, if_false] at h
  split at h
  · cases h
  rename_i w1 ltgt h1
  split at h
  · cases h
  rename_i w2 htgt rawtgts h2
  split at h
  · cases h
  rename_i w3 h3
  cases h
  have habs : ∀ p, ∃ x : List Str, E.canon p = pathOf x := fun p => by
    obtain ⟨x, _, e⟩ := hr.real hT p
    exact ⟨x, e⟩
  have hfine : ∀ l ∈ libs, LibFine E D l := by
    intro l hl
    refine ⟨?_, hcanon l hl, (hstarl l hl).1, (hstarl l hl).2⟩
    obtain ⟨x, e⟩ := habs (libDest D l)
    rw [hcanon l hl] at e
    rw [e]
    exact hh _ (by simp [absPath, isabs])
  have gl : ∀ l ∈ libs, Given T E (abspath (absPath cwd) srcdir) q patterns libs (E.canon (E.home l)) :=
    fun l hl => Or.inl ⟨l, hl, rfl⟩
  have ml : ∀ l ∈ libs, Made T D q B patterns libs (libDest D l) := fun l hl => Or.inl ⟨l, hl, rfl⟩
  have mh : ∀ ds f, Header T q patterns ds f → Made T D q B patterns libs (pathOf (B ++ ds ++ [f])) :=
    fun ds f hf => Or.inr ⟨ds, f, hf, rfl⟩
  have gh : ∀ ds f, Header T q patterns ds f → Given T E (abspath (absPath cwd) srcdir) q patterns libs
      (E.canon (String.ofList (Glob.below (abspath (absPath cwd) srcdir) (ds ++ [f])))) :=
    fun ds f hf => Or.inr ⟨ds, f, hf, rfl⟩
  obtain ⟨rfl, c1, s1⟩ := installLibs_ok hE he hfine (fun l hl l' hl' => hsep _ _ (gl l hl) (ml l' hl'))
    (fun l hl l' hl' => hmiss _ _ (Or.inl (gl l hl)) (Or.inl (gl l' hl')))
    (fun l hl l' hl' => hmiss _ _ (Or.inl (gl l hl)) (Or.inr (ml l' hl')))
    (fun l hl l' hl' => hmiss _ _ (Or.inr (ml l hl)) (Or.inl (gl l' hl')))
    (fun l hl l' hl' => hmiss _ _ (Or.inr (ml l hl)) (Or.inr (ml l' hl'))) hinj h1
  obtain ⟨t2, c2, -, -⟩ := C107_headers V hr hT hcwd hh ho hB hsolid hstar
    (fun ds f ds' f' hf hf' => hsep _ _ (gh ds f hf) (mh ds' f' hf')) h2
  obtain ⟨s2, hname, o2, f1, f2, f3, f4⟩ := installHeaders_stay V hr hT hcwd hh ho hB hsolid hstar h2
  rw [← hname] at hnames hfull
  -- the names that `tgt` and `uninstall` leave alone
  generalize hw : addUninstall w2 uninstall (rawtgts ++ libs.map (libDest D)) = wu at h3
  have su : Stays E.canon w2.dflt wu.dflt (fun n => ∀ t, t = tgt ∨ some t = uninstall → n ≠ t ∧ E.canon n ≠ t) := by
    subst hw
    cases uninstall with
    | none => exact ⟨le_refl _, fun _ _ => ⟨rfl, rfl⟩, fun _ _ _ h => h⟩
    | some u => exact (stays_add w2.dflt (uninstallObj u _) .other).mono fun n hn => hn u (Or.inr rfl)
  have hdeps : (if (!libs.isEmpty) = true then [htgt] ++ libs.map (libDest D) else [htgt]) = htgt :: libs.map (libDest D) := by
    cases libs <;> simp
  rw [hdeps] at h3
  obtain ⟨st, o3, g1, g2, g3, g4⟩ := filesetG_ok hE (by
    intro t ht
    rcases List.mem_cons.1 ht with rfl | ht
    · rw [hname]
      simp only [String.toList_append, String.toList_ofList, List.mem_append, not_or]
      exact ⟨by decide, hstarA⟩
    · obtain ⟨l, hl, rfl⟩ := List.mem_map.1 ht
      have := (hstarl l hl).2.1
      rwa [hcanon l hl] at this) h3
  have sut := su.trans (st.mono fun n hn => hn tgt (Or.inl rfl))
  have hslash : ∀ x : List Str, pathOf x ≠ htgt := by
    intro x e
    rw [hname] at e
    have := congrArg String.toList e
    rw [String.toList_append, pathOf, String.toList_ofList] at this
    cases this
  have hcslash : ∀ p, E.canon p ≠ htgt := fun p e => by
    obtain ⟨x, hx⟩ := habs p
    exact hslash x (hx ▸ e)
  refine ⟨htgt, rawtgts, ⟨o3, Or.inl g1, g3, g4⟩, ⟨o2, sut.keep _ _ (hnames _ (Or.inl rfl)) (Or.inl f1), ?_, ?_⟩, t2, ?_, ?_, ?_⟩
  · rw [(sut.obj o2 f2).2, f3]
  · rw [(sut.obj o2 f2).1, f4]
  · intro ds f hf
    exact sut.copied (hnames _ (Or.inr (Or.inr (Or.inl (mh ds f hf))))) (hnames _ (Or.inr (Or.inr (Or.inr ⟨ds, f, hf, rfl⟩))))
      (c2 ds f hf)
  · intro l hl
    have hd : libDest D l ≠ htgt := fun e => hcslash (libDest D l) (by rw [hcanon l hl]; exact e)
    have pl := hnames _ (Or.inr (Or.inl ⟨l, hl, rfl⟩))
    have p2 : E.home l ≠ htgt ∧ E.canon (E.home l) ≠ htgt ∧ ∀ ds f, Header T q patterns ds f →
        ¬ MissingDir E (pathOf (B ++ ds ++ [f])) (E.canon (E.home l)) ∧ E.canon (E.home l) ≠ pathOf (B ++ ds ++ [f]) :=
      ⟨hfull l hl, hcslash _, fun ds f hf => ⟨hmiss _ _ (Or.inr (mh ds f hf)) (Or.inl (gl l hl)),
        hsep _ _ (gl l hl) (mh ds f hf)⟩⟩
    constructor
    · refine sut.copied (hnames _ (Or.inr (Or.inr (Or.inl (ml l hl))))) pl (s2.copied ?_ p2 (c1 l hl))
      rw [hcanon l hl]
      exact ⟨hd, hd, fun ds f hf => ⟨hmiss _ _ (Or.inr (mh ds f hf)) (Or.inr (ml l hl)), hlh l hl ds f hf⟩⟩
    · intro o ho hres
      have k1 := s1.obj o ho
      have k2 := s2.obj o (lt_of_lt_of_le ho s1.next)
      have k3 := sut.obj o (lt_of_lt_of_le ho (le_trans s1.next s2.next))
      refine ⟨sut.keep _ _ pl (s2.keep _ _ p2 (s1.keep _ _ ?_ hres)), ?_, ?_⟩
      · intro l' hl'
        exact ⟨hmiss _ _ (Or.inl (gl l' hl')) (Or.inl (gl l hl)), hmiss _ _ (Or.inr (ml l' hl')) (Or.inl (gl l hl)),
          hsep _ _ (gl l hl) (ml l' hl')⟩
      · rw [k3.1, k2.1, k1.1]
      · rw [k3.2, k2.2, k1.2]
  · rintro u rfl
    subst hw
    have hres : (w2.dflt.add (uninstallObj u (rawtgts ++ libs.map (libDest D))) .other).reg.targets.get u =
        some w2.dflt.reg.next := by simp [MReg.add, Core.add, uninstallObj]
    have hlt : w2.dflt.reg.next < (w2.dflt.add (uninstallObj u (rawtgts ++ libs.map (libDest D))) .other).reg.next := by
      simp [MReg.add, Core.add]
    have hob : (w2.dflt.add (uninstallObj u (rawtgts ++ libs.map (libDest D))) .other).reg.obj w2.dflt.reg.next =
        uninstallObj u (rawtgts ++ libs.map (libDest D)) := by simp [MReg.add, Core.add]
    refine ⟨w2.dflt.reg.next, st.keep _ _ (hut u rfl) (Or.inl hres), ?_, ?_⟩
    · rw [(st.obj _ hlt).1]; exact congrArg Obj.deps hob
    · rw [(st.obj _ hlt).1]; exact congrArg Obj.weakdeps hob

/-- C114: with the empty text for a library, the set that `install_library` registers consists of the headers alone. -/
theorem C114_empty_name (V : View T cwd) {lim : Nat} {D : Dirs} {w w' : World} {tgt : String} {hroot srcdir : Str}
    {patterns : List Str} {uninstall : Option String} (hE : E.Sane) (hstarA : '*' ∉ abspath (absPath cwd) srcdir)
    (h : installLibrary V E lim D w tgt hroot srcdir patterns uninstall (.one "") = .ok (w', true)) :
    ∃ o, Resolves E.canon w'.dflt.reg tgt o ∧ w'.dflt.kind o = .fileset ∧
      (w'.dflt.reg.obj o).deps = ["headers://" ++ String.ofList (abspath (absPath cwd) srcdir)] := by
  unfold installLibrary at h
  split at h
  · cases h
  split at h
  · cases h
  rename_i w1 ltgt h1
  split at h
  · cases h
  rename_i w2 htgt rawtgts h2
  have hname : htgt = "headers://" ++ String.ofList (abspath (absPath cwd) srcdir) := by
    unfold installHeaders at h2
    simp only at h2
    split at h2
    · cases h2
    split at h2
    · cases h2
    split at h2
    · cases h2
    split at h2
    · cases h2
    cases h2
    rfl
  have ht : LibTgt.truthy (.one "") = false := rfl
  simp only [ht, Bool.false_eq_true, if_false] at h
  split at h
  · cases h
  rename_i w3 h3
  cases h
  obtain ⟨_, o, g1, _, g3, g4⟩ := filesetG_ok hE (by
    intro t ht
    rw [List.mem_singleton.1 ht, hname]
    simp only [String.toList_append, String.toList_ofList, List.mem_append, not_or]
    exact ⟨by decide, hstarA⟩) h3
  exact ⟨o, Or.inl g1, g3, by rw [g4, hname]⟩

/-- **C94 is false** of `install_library` as well: on a system whose PATH has `/usr/bin` but not exactly `/usr/local/bin`, it
registers nothing and returns `None`, silently. -/
theorem C94_library_violated (V : View T cwd) (E : Env) (lim : Nat) (v : Vars) (path : Str) (hp : v.PATH = some path)
    (hn : v.PREFIX = none) (hl : usrLocalBin ∉ entries path) (hw : ∀ r ∈ entries path, ¬ winBin <:+: r)
    (hu : ∃ r ∈ entries path, usrBin <:+: r) :
    ∃ D, load v = some D ∧ (∃ r ∈ entries path, D.path = r) ∧
      ∀ w tgt hroot headers patterns uninstall libtgt,
        installLibrary V E lim D w tgt hroot headers patterns uninstall libtgt = .ok (w, false) := by
  obtain ⟨D, h1, h2, h3⟩ := C94_violated E lim v path hp hn hl hw hu
  refine ⟨D, h1, h2, fun w tgt hroot headers patterns uninstall libtgt => ?_⟩
  have he : D.error = true := by
    by_contra he
    have := (h3 w "").2 none
    simp only [installSharedLibrary, he, if_false] at this
    split at this <;> cases this
  simp [installLibrary, he]

/-- C114: the call returns, if neither the tree is deeper nor the paths are longer than the recursion limit allows. -/
theorem C114_returns (V : View T cwd) {lim N : Nat} {D : Dirs} (w : World) (tgt : String) {hroot srcdir : Str}
    {patterns : List Str} (uninstall : Option String) {libtgt : LibTgt} {B q : List Str}
    (hr : Realises T cwd E) (hT : NoDangling T) (hcwd : T.get cwd = some .dir)
    (hh : ∀ p : Str, isabs p = true → E.home (String.ofList p) = String.ofList p) (he : D.error = false)
    (ho : Opens T cwd (abspath (absPath cwd) srcdir) q)
    (hB : join D.headers hroot = absPath B) (hBp : ∀ c ∈ B, Plain c)
    (hN : ∀ q, T.get q ≠ none → q.length ≤ N) (hl : N < lim)
    (hshort : ∀ ds f, Header T q patterns ds f → Short E lim (pathOf (B ++ ds ++ [f])) ∧
      Short E lim (String.ofList (Glob.below (abspath (absPath cwd) srcdir) (ds ++ [f]))))
    (hlib : ∀ l ∈ libtgt.libs, Short E lim (E.home (libDest D l)) ∧ Short E lim (E.home l)) :
    ∃ w', installLibrary V E lim D w tgt hroot srcdir patterns uninstall libtgt = .ok (w', true) := by
  have hE := hr.sane hT hcwd
  unfold installLibrary
  simp only [he, Bool.false_eq_true, if_false]
  obtain ⟨⟨w1, ltgt⟩, h1⟩ : ∃ r, installLibs E lim D w libtgt.libs = .ok r := by
    refine foldlM_returns (fun l hl x => ?_) _
    obtain ⟨w', hw'⟩ := copyG_returns (lim := lim) hE x.1 (tgt := libDest D l) (src := l) [] false (hlib l hl).1 (hlib l hl).2
    refine ⟨(w', x.2 ++ [libDest D l]), ?_⟩
    unfold libStep installSharedLibrary
    simp only [he, Bool.false_eq_true, if_false, Option.getD_none]
    unfold libDest at hw'
    rw [hw']
    rfl
  rw [h1]
  simp only
  obtain ⟨⟨w2, full, targets⟩, h2⟩ := C107_returns V w1 libtgt.libs hr hT hcwd hh ho hB hBp hN hl hshort
  rw [h2]
  simp only
  obtain ⟨w3, h3⟩ := filesetG_returns (lim := lim) hE (by omega) (addUninstall w2 uninstall (targets ++ ltgt)) tgt
    (if libtgt.truthy = true then [full] ++ ltgt else [full]) [] false
  rw [h3]
  exact ⟨w3, rfl⟩

end

/-! a library with two headers -/

/-- the files copied and made: two headers, and a library that is not there yet -/
def libFiles : List (List Str) :=
  [[nm "src", nm "a.h"], [nm "src", nm "sub", nm "b.h"], [nm "src", nm "libx.so"], hdrDest ++ [] ++ [nm "a.h"],
   hdrDest ++ [nm "sub"] ++ [nm "b.h"], [nm "usr", nm "lib", nm "libx.so"]]

/-- the directories -/
def libDirs : Dirs := ⟨nm "/usr/bin", nm "/usr/include", nm "/usr/lib", false⟩

theorem libFiles_solid : ∀ q ∈ libFiles, Solid hdrTree q := by
  intro q hq
  have hp : ∀ q ∈ libFiles, ∀ c ∈ q, c ≠ [] ∧ c ≠ ['.'] ∧ c ≠ ['.', '.'] ∧ '/' ∉ c := by decide +kernel
  refine ⟨fun c hc => ?_, fun a b t e ht => ?_⟩
  · obtain ⟨h1, h2, h3, h4⟩ := hp q hq c hc
    constructor <;> assumption
  · have hall : ∀ x ∈ hdrEntries, x.2 = .file ∨ x.2 = .dir := by decide +kernel
    rcases List.eq_nil_or_concat a with rfl | ⟨a', c, rfl⟩
    · rw [hdrTree.root] at ht; cases ht
    · rw [List.concat_eq_append] at ht
      rcases hall _ (hdr_get _ _ ht) with h | h <;> cases h

theorem libFiles_apart : ∀ q ∈ libFiles, ∀ q' ∈ libFiles, ∀ b, b ≠ [] → q ≠ q' ++ b := by
  have h : ∀ q ∈ libFiles, ∀ q' ∈ libFiles, q' <+: q → q = q' := by decide +kernel
  rintro q hq q' hq' b hb rfl
  have := h _ hq _ hq' (List.prefix_append _ _)
  exact hb (by simpa using this)

theorem libFiles_nostar : ∀ q ∈ libFiles, '*' ∉ (pathOf q).toList ∧ pathOf q ≠ "install" ∧ pathOf q ≠ "uninstall" := by
  decide +kernel

theorem lib_paths : pathOf [nm "src", nm "libx.so"] = "/src/libx.so" ∧
    pathOf [nm "usr", nm "lib", nm "libx.so"] = "/usr/lib/libx.so" ∧ libDest libDirs "/src/libx.so" = "/usr/lib/libx.so" ∧
    (∀ p ∈ ["/src/a.h", "/src/sub/b.h", "/src/libx.so", "/usr/include/lib/a.h", "/usr/include/lib/sub/b.h", "/usr/lib/libx.so"],
      ∃ q ∈ libFiles, p = pathOf q) := by
  refine ⟨by decide +kernel, by decide +kernel, by decide +kernel, by decide +kernel⟩

attribute [local irreducible] hdrTree hdrDest pathOf Glob.below abspath envOf libFiles

theorem lib_canon {q : List Str} (hq : q ∈ libFiles) : (envOf hdrTree []).canon (pathOf q) = pathOf q := by
  unfold pathOf
  exact (envOf_realises hdrTree []).canon_abs (libFiles_solid q hq)

/-- a canonical path is absolute -/
theorem lib_names (n : String) : (envOf hdrTree []).canon n ≠ "install" ∧ (envOf hdrTree []).canon n ≠ "uninstall" := by
  obtain ⟨x, _, e⟩ := (envOf_realises hdrTree []).real hdr_noDangling n
  rw [e]
  constructor <;>
  · intro h
    have := congrArg String.toList h
    rw [String.toList_ofList] at this
    cases this

theorem libFiles_ne {q : List Str} (hq : q ∈ libFiles) : q ≠ [] := by
  have : ∀ q ∈ libFiles, q ≠ [] := by decide +kernel
  exact this q hq

theorem lib_missing {q q' : List Str} (hq : q ∈ libFiles) (hq' : q' ∈ libFiles) :
    ¬ MissingDir (envOf hdrTree []) (pathOf q) (pathOf q') := by
  intro h
  obtain ⟨a, b, e, hb, e'⟩ := missingDir_pathOf (envOf_realises hdrTree []) (libFiles_solid q hq) (libFiles_ne hq) h
  have e'' := absPath_inj (q' := a) (libFiles_solid q' hq').plain
    (fun c hc => (libFiles_solid q hq).plain c (by rw [e]; simp [hc])) (by unfold pathOf at e'; exact ofList_inj e')
  exact libFiles_apart q hq q' hq' b hb (by rw [e'', e])

theorem lib_nostar {q : List Str} (hq : q ∈ libFiles) : NoStar (envOf hdrTree []) (pathOf q) := by
  refine ⟨by rw [lib_canon hq]; exact (libFiles_nostar q hq).1, fun p hp => ?_⟩
  rw [lib_canon hq] at hp
  obtain ⟨a, b, e, _, rfl⟩ := missingDir_pathOf (envOf_realises hdrTree []) (libFiles_solid q hq) (libFiles_ne hq) hp
  have := (libFiles_nostar q hq).1
  rw [e] at this
  exact nostar_pathOf this

/-- C114_empty_name: the call returns for two headers and the empty text. -/
example : ∃ (V : View hdrTree []) (lim : Nat) (w' : World),
    installLibrary V (envOf hdrTree []) lim libDirs ⟨noReg, noReg⟩ "install" (nm "lib") (nm "src") [nm "*.h"]
      (some "uninstall") (.one "") = .ok (w', true) ∧
    ∃ o, Resolves (envOf hdrTree []).canon w'.dflt.reg "install" o ∧ (w'.dflt.reg.obj o).deps = ["headers:///src"] := by
  obtain ⟨V⟩ : Nonempty (View hdrTree []) := hdr_view
  obtain ⟨⟨p1, p2⟩, ⟨p3, p4⟩, -, hA, hB⟩ := hdr_paths
  obtain ⟨c1, c2, c3, c4⟩ := hdr_canon
  have hr := envOf_realises hdrTree []
  have ho := hdr_opens
  rw [← hA] at ho
  obtain ⟨n, hn⟩ : ∃ n, n = 1000 + ((envOf hdrTree []).canon ((envOf hdrTree []).home (libDest libDirs ""))).toList.length +
    ((envOf hdrTree []).canon ((envOf hdrTree []).home "")).toList.length := ⟨_, rfl⟩
  obtain ⟨w', h⟩ := C114_returns V (lim := n) (N := 4) (D := libDirs) (patterns := [nm "*.h"]) ⟨noReg, noReg⟩ "install"
    (some "uninstall") (libtgt := .one "") hr hdr_noDangling hdrTree.root hdr_home rfl ho hB
    (fun c hc => hdr_plain _ (List.mem_cons_self ..) c (List.mem_append.2 (Or.inl (List.mem_append.2 (Or.inl hc))))) hdr_deep
    (by omega) (by
      intro ds f hf
      have hle : 1000 ≤ n := by omega
      have key : ∀ p : String, p.toList.length + 2 ≤ 1000 → p.toList.length + 2 ≤ n := fun p h => le_trans h hle
      rw [hA]
      unfold Short
      rcases hdr_header hf with ⟨rfl, rfl⟩ | ⟨rfl, rfl⟩
      · rw [p1, p3, c1, c3]; exact ⟨key _ (by decide +kernel), key _ (by decide +kernel)⟩
      · rw [p2, p4, c2, c4]; exact ⟨key _ (by decide +kernel), key _ (by decide +kernel)⟩) (by
      intro l hl
      rw [List.mem_singleton.1 hl]
      unfold Short
      omega)
  refine ⟨V, n, w', h, ?_⟩
  obtain ⟨o, g1, _, g3⟩ := C114_empty_name V (hr.sane hdr_noDangling hdrTree.root) (by rw [hA]; decide) h
  refine ⟨o, g1, ?_⟩
  rw [g3, hA]
  decide +kernel

/-- C114: two headers and a library are installed. -/
example : ∃ (V : View hdrTree []) (w' : World) (full : String),
    installLibrary V (envOf hdrTree []) 1000 libDirs ⟨noReg, noReg⟩ "install" (nm "lib") (nm "src") [nm "*.h"]
      (some "uninstall") (.one "/src/libx.so") = .ok (w', true) ∧
    (∃ o, Resolves (envOf hdrTree []).canon w'.dflt.reg "install" o ∧ (w'.dflt.reg.obj o).deps = [full, "/usr/lib/libx.so"]) ∧
    Copied (envOf hdrTree []) ["/src/libx.so"] w'.dflt "/usr/include/lib/a.h" "/src/a.h" ∧
    Copied (envOf hdrTree []) [] w'.dflt "/usr/lib/libx.so" "/src/libx.so" := by
  obtain ⟨V⟩ : Nonempty (View hdrTree []) := hdr_view
  obtain ⟨⟨p1, p2⟩, ⟨p3, p4⟩, -, hA, hB⟩ := hdr_paths
  obtain ⟨l1, l2, l3, l4⟩ := lib_paths
  obtain ⟨c1, c2, c3, c4⟩ := hdr_canon
  have hr := envOf_realises hdrTree []
  have ho := hdr_opens
  rw [← hA] at ho
  have q3 : [nm "src", nm "libx.so"] ∈ libFiles := by unfold libFiles; simp
  have q6 : [nm "usr", nm "lib", nm "libx.so"] ∈ libFiles := by unfold libFiles; simp
  have hhome : (envOf hdrTree []).home "/src/libx.so" = "/src/libx.so" := hdr_home (nm "/src/libx.so") (by decide)
  have hhomeD : (envOf hdrTree []).home "/usr/lib/libx.so" = "/usr/lib/libx.so" := hdr_home (nm "/usr/lib/libx.so") (by decide)
  have cl : (envOf hdrTree []).canon "/src/libx.so" = "/src/libx.so" := l1 ▸ lib_canon q3
  have cd : (envOf hdrTree []).canon "/usr/lib/libx.so" = "/usr/lib/libx.so" := l2 ▸ lib_canon q6
  have hgiven : ∀ p, Given hdrTree (envOf hdrTree []) (abspath (absPath []) (nm "src")) [nm "src"] [nm "*.h"] ["/src/libx.so"] p →
      p = "/src/a.h" ∨ p = "/src/sub/b.h" ∨ p = "/src/libx.so" := by
    rintro p (⟨l, hl, rfl⟩ | ⟨ds, f, hf, rfl⟩)
    · rw [List.mem_singleton.1 hl, hhome, cl]; tauto
    · rw [hA]
      rcases hdr_header hf with ⟨rfl, rfl⟩ | ⟨rfl, rfl⟩
      · rw [p1, c1]; tauto
      · rw [p2, c2]; tauto
  have hmade : ∀ p, Made hdrTree libDirs [nm "src"] hdrDest [nm "*.h"] ["/src/libx.so"] p →
      p = "/usr/include/lib/a.h" ∨ p = "/usr/include/lib/sub/b.h" ∨ p = "/usr/lib/libx.so" := by
    rintro p (⟨l, hl, rfl⟩ | ⟨ds, f, hf, rfl⟩)
    · rw [List.mem_singleton.1 hl, l3]; tauto
    · rcases hdr_header hf with ⟨rfl, rfl⟩ | ⟨rfl, rfl⟩
      · rw [p3]; tauto
      · rw [p4]; tauto
  have hplace : ∀ p, p = "/src/a.h" ∨ p = "/src/sub/b.h" ∨ p = "/src/libx.so" ∨ p = "/usr/include/lib/a.h" ∨
      p = "/usr/include/lib/sub/b.h" ∨ p = "/usr/lib/libx.so" → ∃ q ∈ libFiles, p = pathOf q := by
    intro p hp
    exact l4 p (by simpa using hp)
  obtain ⟨w', h⟩ := C114_returns V (lim := 1000) (N := 4) (D := libDirs) (patterns := [nm "*.h"]) ⟨noReg, noReg⟩ "install"
    (some "uninstall") (libtgt := .one "/src/libx.so") hr hdr_noDangling hdrTree.root hdr_home rfl ho hB
    (fun c hc => hdr_plain _ (List.mem_cons_self ..) c (List.mem_append.2 (Or.inl (List.mem_append.2 (Or.inl hc))))) hdr_deep
    (by omega) (by
      intro ds f hf
      rw [hA]
      unfold Short
      rcases hdr_header hf with ⟨rfl, rfl⟩ | ⟨rfl, rfl⟩
      · rw [p1, p3, c1, c3]; decide +kernel
      · rw [p2, p4, c2, c4]; decide +kernel) (by
      intro l hl
      rw [List.mem_singleton.1 hl, l3, hhome, hhomeD]
      unfold Short
      rw [cl, cd]
      decide +kernel)
  obtain ⟨full, targets, ⟨o, ho1, -, ho2⟩, -, -, hc, hl, -⟩ := C114_library V hr hdr_noDangling hdrTree.root hdr_home rfl
    (by simp [LibTgt.libs]) ho hB (by
      intro ds f hf
      rcases hdr_header hf with ⟨rfl, rfl⟩ | ⟨rfl, rfl⟩
      · exact hdr_dest _ (List.mem_cons_self ..)
      · exact hdr_dest _ (List.mem_cons_of_mem _ (List.mem_cons_self ..))) (by
      intro l hl
      rw [List.mem_singleton.1 hl, l3, cd]) (by
      intro ds f hf
      rw [hA]
      rcases hdr_header hf with ⟨rfl, rfl⟩ | ⟨rfl, rfl⟩
      · rw [p1, p3, c1]; decide +kernel
      · rw [p2, p4, c2]; decide +kernel) (by rw [hA]; decide) (by
      intro l hl
      rw [List.mem_singleton.1 hl, l3, hhome, ← l1, ← l2]
      exact ⟨lib_nostar q3, lib_nostar q6⟩) (by
      intro p p' hp hp'
      rcases hgiven p hp with rfl | rfl | rfl <;> rcases hmade p' hp' with rfl | rfl | rfl <;> decide) (by
      intro p p' hp hp'
      obtain ⟨q, hq, rfl⟩ := hplace p (by rcases hp with hp | hp; · have := hgiven p hp; tauto
                                          · have := hmade p hp; tauto)
      obtain ⟨q', hq', rfl⟩ := hplace p' (by rcases hp' with hp | hp; · have := hgiven p' hp; tauto
                                             · have := hmade p' hp; tauto)
      exact lib_missing hq hq') (by
      intro l hl l' hl' _
      rw [List.mem_singleton.1 hl, List.mem_singleton.1 hl']) (by
      intro l hl ds f hf
      rw [List.mem_singleton.1 hl, l3]
      rcases hdr_header hf with ⟨rfl, rfl⟩ | ⟨rfl, rfl⟩
      · rw [p3]; decide
      · rw [p4]; decide) (by
      intro n hn t ht
      have hn' : n ≠ "install" ∧ n ≠ "uninstall" := by
        rcases hn with rfl | ⟨l, hl, rfl⟩ | hn | ⟨ds, f, hf, rfl⟩
        · rw [hA]; decide
        · rw [List.mem_singleton.1 hl, hhome]; decide
        · rcases hmade n hn with rfl | rfl | rfl <;> decide
        · rw [hA]
          rcases hdr_header hf with ⟨rfl, rfl⟩ | ⟨rfl, rfl⟩
          · rw [p1]; decide
          · rw [p2]; decide
      rcases ht with rfl | ht
      · exact ⟨hn'.1, (lib_names n).1⟩
      · cases ht
        exact ⟨hn'.2, (lib_names n).2⟩) (by
      intro l hl
      rw [List.mem_singleton.1 hl, hhome, hA]
      decide) (by
      intro u hu
      cases hu
      exact ⟨by decide, (lib_names _).1⟩) h
  have h1 := hc _ _ hdr_is.1
  rw [hA, p1, p3] at h1
  have h2 := (hl "/src/libx.so" (List.mem_singleton.2 rfl)).1
  rw [l3, hhome] at h2
  refine ⟨V, w', full, h, ⟨o, ho1, ?_⟩, h1, h2⟩
  rw [ho2, ← l3]
  rfl

end Licant.Misc.Library
