/-
Model of the directories chosen by `licant/install.py` and of `install_application`.
C69: which directories; C93: importing it works everywhere (violated); C94: a directory that was found is used (violated);
C95: `install_application(src, dst)` registers the installation (violated).
-/
import Verif.Make.RegisterProps
import Verif.Core.Need

set_option autoImplicit false

namespace Licant.Misc.Install

open Licant.Py Licant.Py.Path Licant.Core Licant.Make Relation

/-! ### model: the directories -/

/-- the two environment variables read -/
structure Vars where
  PATH : Option Str
  PREFIX : Option Str

/-- install.py:19 `envout.split(":")` -/
def entries (path : Str) : List Str := path.splitOnP (· = ':')

/-- what the entries of a path are: the parts between the colons, of which there are none inside a part -/
theorem entries_spec (path : Str) (l : List Str) :
    entries path = l ↔ l ≠ [] ∧ (∀ e ∈ l, ':' ∉ e) ∧ List.intercalate [':'] l = path := by
  have he : ∀ p, entries p = p.splitOn ':' := by
    intro p
    unfold entries
    congr 1
  have hno : ∀ p : Str, ∀ e ∈ entries p, ':' ∉ e := by
    intro p
    unfold entries
    induction p with
    | nil => simp
    | cons c p ih =>
      rw [List.splitOnP_cons_eq_if_modifyHead]
      split
      · intro e h
        rcases List.mem_cons.1 h with rfl | h
        · simp
        · exact ih e h
      · rename_i hc
        cases hs : List.splitOnP (fun x => decide (x = ':')) p with
        | nil => exact absurd hs (List.splitOnP_ne_nil _ _)
        | cons y ys =>
          rw [hs] at ih
          intro e h
          rcases List.mem_cons.1 h with rfl | h
          · have := ih y (by simp)
            simp only [decide_eq_true_eq] at hc
            simp only [List.mem_cons, not_or]
            exact ⟨fun e => hc e.symm, this⟩
          · exact ih e (List.mem_cons_of_mem _ h)
  constructor
  · rintro rfl
    exact ⟨List.splitOnP_ne_nil _ _, hno path, by rw [he, List.intercalate_splitOn]⟩
  · rintro ⟨h1, h2, rfl⟩
    rw [he, List.splitOn_intercalate _ h2 h1]

/-- `for p in path_list: if s in p: path = p; break` (install.py:28-31, 32-35, 36-39); `none` if the loop does not break.
`s in p` for strings is "is a substring". -/
def firstWith (s : Str) (l : List Str) : Option Str := l.find? fun p => decide (s <:+: p)

def usrBin : Str := "/usr/bin".toList
def usrLocalBin : Str := "/usr/local/bin".toList
def winBin : Str := "\\usr\\local\\bin".toList

/-- install.py:15-44 `find_application_path`: the path and whether `error_in_install_library` is set; `none` is an exception
(`KeyError` without PATH, 18; `UnboundLocalError` if `path` is never assigned, 44).  A later loop overwrites the result of
an earlier one. -/
def findApplicationPath (v : Vars) : Option (Str × Bool) :=
  match v.PATH with
  | none => none
  | some path =>
    match v.PREFIX with
    | some p => some (join p "bin".toList, false)
    | none =>
      if usrLocalBin ∈ entries path then some (usrLocalBin, false)
      else
        let p1 := firstWith usrBin (entries path)
        let p2 := (firstWith usrLocalBin (entries path)).or p1
        match firstWith winBin (entries path) with
        | some p => some (p, false)
        | none => p2.map fun p => (p, true)

/-- install.py:47-59 `find_headers_path` -/
def findHeadersPath (v : Vars) : Str :=
  match v.PREFIX with
  | some p => join p "include".toList
  | none => "/usr/local/include".toList

/-- install.py:62-71 `find_libraries_path` -/
def findLibrariesPath (v : Vars) : Str :=
  match v.PREFIX with
  | some p => join p "lib".toList
  | none => "/usr/lib".toList

/-- install.py:74-76: the variables set when the module is imported; `none` if the import raises -/
structure Dirs where
  path : Str
  headers : Str
  libraries : Str
  error : Bool
deriving DecidableEq

/-- the import of `licant.install`, install.py:74-76 -/
def load (v : Vars) : Option Dirs :=
  (findApplicationPath v).map fun p => ⟨p.1, findHeadersPath v, findLibrariesPath v, p.2⟩

/-! ### model: registration -/

/-- install.py:79-87 `install_application`: the world and whether a target was returned -/
def installApplication (E : Env) (lim : Nat) (D : Dirs) (w : World) (src : String) (dst : Str) (tgt : Option String) :
    Except Err (World × Bool) :=
  if D.error then .ok (w, false)
  else
    let apptgt := String.ofList (join D.path dst)
    match copyG E lim w apptgt src [] false with
    | .error e => .error e
    | .ok w =>
      match filesetG E lim w (tgt.getD apptgt) [apptgt] [] false with
      | .error e => .error e
      | .ok w => .ok (w, true)

/-- install.py:110-120 `install_shared_library` -/
def installSharedLibrary (E : Env) (lim : Nat) (D : Dirs) (w : World) (src : String) (newname : Option Str) :
    Except Err (World × Option String) :=
  if D.error then .ok (w, none)
  else
    let tgt := String.ofList (join D.libraries (newname.getD (basename src.toList)))
    match copyG E lim w tgt src [] false with
    | .error e => .error e
    | .ok w => .ok (w, some tgt)

/-! ### C69 -/

/-- **C69**.  If PATH is set, the directory for applications is: with PREFIX, its `bin`; else `/usr/local/bin` if PATH has
exactly this entry; else the first entry that contains `\usr\local\bin`; else, with the error flag raised, the first that
contains `/usr/local/bin`, or else the first that contains `/usr/bin`.  The directories for headers and libraries are
those in PREFIX, or else fixed ones. -/
theorem C69_prefix (v : Vars) (path : Str) (hp : v.PATH = some path) :
    (∀ p, v.PREFIX = some p →
      load v = some ⟨join p "bin".toList, join p "include".toList, join p "lib".toList, false⟩) ∧
    (v.PREFIX = none → ∀ D, load v = some D →
      D.headers = "/usr/local/include".toList ∧ D.libraries = "/usr/lib".toList) ∧
    (v.PREFIX = none → usrLocalBin ∈ entries path → ∃ D, load v = some D ∧ D.path = usrLocalBin ∧ D.error = false) ∧
    (v.PREFIX = none → usrLocalBin ∉ entries path → ∀ pre q post, entries path = pre ++ q :: post →
      ((winBin <:+: q ∧ ∀ r ∈ pre, ¬ winBin <:+: r) → ∃ D, load v = some D ∧ D.path = q ∧ D.error = false) ∧
      ((∀ r ∈ entries path, ¬ winBin <:+: r) →
        ((usrLocalBin <:+: q ∧ ∀ r ∈ pre, ¬ usrLocalBin <:+: r) → ∃ D, load v = some D ∧ D.path = q ∧ D.error = true) ∧
        ((∀ r ∈ entries path, ¬ usrLocalBin <:+: r) → (usrBin <:+: q ∧ ∀ r ∈ pre, ¬ usrBin <:+: r) →
          ∃ D, load v = some D ∧ D.path = q ∧ D.error = true))) := by
  have hfirst : ∀ s (pre : List Str) q post, s <:+: q → (∀ r ∈ pre, ¬ s <:+: r) →
      firstWith s (pre ++ q :: post) = some q := by
    intro s pre q post h1 h2
    rw [firstWith, List.find?_append, List.find?_eq_none.2 (fun r hr => by simpa using h2 r hr)]
    simp [h1]
  have hnone : ∀ s (l : List Str), (∀ r ∈ l, ¬ s <:+: r) → firstWith s l = none := by
    intro s l h
    exact List.find?_eq_none.2 (fun r hr => by simpa using h r hr)
  refine ⟨fun p h => ?_, fun h D hD => ?_, fun h hm => ?_, fun h hm pre q post he => ⟨fun hq => ?_, fun hw =>
    ⟨fun hq => ?_, fun hl hq => ?_⟩⟩⟩
  · simp [load, findApplicationPath, findHeadersPath, findLibrariesPath, hp, h]
  · simp only [load, Option.map_eq_some_iff] at hD
    obtain ⟨_, _, rfl⟩ := hD
    simp [findHeadersPath, findLibrariesPath, h]
  · simp [load, findApplicationPath, hp, h, hm]
  · simp only [load, findApplicationPath, hp, h, hm]
    rw [he, hfirst _ _ _ _ hq.1 hq.2]
    simp
  · simp only [load, findApplicationPath, hp, h, hm]
    rw [hnone _ _ hw, he, hfirst _ _ _ _ hq.1 hq.2]
    simp
  · simp only [load, findApplicationPath, hp, h, hm]
    rw [hnone _ _ hw, hnone _ _ hl, he, hfirst _ _ _ _ hq.1 hq.2]
    simp

/-! ### C93 -/

/-- **C93 is false**: without PREFIX, importing `licant.install` raises as soon as no entry of PATH contains `/usr/bin`,
`/usr/local/bin` or `\usr\local\bin`; and without PATH it raises in any case. -/
theorem C93_violated (v : Vars) :
    (v.PATH = none → load v = none) ∧
    (∀ path, v.PATH = some path → v.PREFIX = none →
      (∀ r ∈ entries path, ¬ usrBin <:+: r ∧ ¬ usrLocalBin <:+: r ∧ ¬ winBin <:+: r) → load v = none) := by
  refine ⟨fun h => by simp [load, findApplicationPath, h], fun path h hn hr => ?_⟩
  have hnone : ∀ s (l : List Str), (∀ r ∈ l, ¬ s <:+: r) → firstWith s l = none := by
    intro s l h
    exact List.find?_eq_none.2 (fun r hr => by simpa using h r hr)
  have hm : usrLocalBin ∉ entries path := fun hm => (hr _ hm).2.1 (List.infix_refl _)
  simp [load, findApplicationPath, h, hn, hm, hnone _ _ fun r h => (hr r h).1, hnone _ _ fun r h => (hr r h).2.1,
    hnone _ _ fun r h => (hr r h).2.2]

/-- C93, the part that holds: with PATH set, and PREFIX set or a usable entry in PATH, the import returns. -/
theorem C93_partial (v : Vars) (path : Str) (hp : v.PATH = some path)
    (h : (∃ p, v.PREFIX = some p) ∨ ∃ r ∈ entries path, usrBin <:+: r ∨ usrLocalBin <:+: r ∨ winBin <:+: r) :
    ∃ D, load v = some D := by
  have hsome : ∀ s (l : List Str), (∃ r ∈ l, s <:+: r) → (firstWith s l).isSome := by
    rintro s l ⟨r, hr, hs⟩
    exact List.find?_isSome.2 ⟨r, hr, by simpa using hs⟩
  cases hpre : v.PREFIX with
  | some p => simp [load, findApplicationPath, hp, hpre]
  | none =>
    rcases h with ⟨p, h⟩ | ⟨r, hr, h⟩
    · rw [hpre] at h; cases h
    · simp only [load, findApplicationPath, hp, hpre]
      split
      · simp
      · split
        · simp
        · rename_i hw
          have h3 : ¬ winBin <:+: r := by
            intro h
            have := hsome _ _ ⟨r, hr, h⟩
            rw [hw] at this
            cases this
          rcases h with h | h | h
          · obtain ⟨x, hx⟩ := Option.isSome_iff_exists.1 (hsome _ _ ⟨r, hr, h⟩)
            cases h2 : firstWith usrLocalBin (entries path) <;> simp [hx]
          · obtain ⟨x, hx⟩ := Option.isSome_iff_exists.1 (hsome _ _ ⟨r, hr, h⟩)
            simp [hx]
          · exact absurd h h3

/-! ### C94 -/

/-- **C94 is false**: on a system whose PATH has `/usr/bin` but not exactly `/usr/local/bin`, a directory is found, but
`install_application` and `install_shared_library` register nothing and return `None`, silently. -/
theorem C94_violated (E : Env) (lim : Nat) (v : Vars) (path : Str) (hp : v.PATH = some path) (hn : v.PREFIX = none)
    (hl : usrLocalBin ∉ entries path) (hw : ∀ r ∈ entries path, ¬ winBin <:+: r)
    (hu : ∃ r ∈ entries path, usrBin <:+: r) :
    ∃ D, load v = some D ∧ (∃ r ∈ entries path, D.path = r) ∧
      ∀ w src, (∀ dst tgt, installApplication E lim D w src dst tgt = .ok (w, false)) ∧
        ∀ newname, installSharedLibrary E lim D w src newname = .ok (w, none) := by
  have hnone : firstWith winBin (entries path) = none := List.find?_eq_none.2 (fun r hr => by simpa using hw r hr)
  have hmem : ∀ s x, firstWith s (entries path) = some x → x ∈ entries path := fun s x h => List.mem_of_find?_eq_some h
  obtain ⟨r, hr, h⟩ := hu
  obtain ⟨x, hx⟩ : ∃ x, firstWith usrBin (entries path) = some x :=
    Option.isSome_iff_exists.1 (List.find?_isSome.2 ⟨r, hr, by simpa using h⟩)
  have : ∃ y ∈ entries path, load v = some ⟨y, findHeadersPath v, findLibrariesPath v, true⟩ := by
    cases h2 : firstWith usrLocalBin (entries path) with
    | some y => exact ⟨y, hmem _ _ h2, by simp [load, findApplicationPath, hp, hn, hl, hnone, h2]⟩
    | none => exact ⟨x, hmem _ _ hx, by simp [load, findApplicationPath, hp, hn, hl, hnone, h2, hx]⟩
  obtain ⟨y, hy, e⟩ := this
  exact ⟨_, e, ⟨y, hy, rfl⟩, fun w src => ⟨fun dst tgt => rfl, fun newname => rfl⟩⟩

/-! ### C95 -/

variable {E : Env} {lim : Nat}

def NodupKeys (c : MReg) : Prop := c.reg.targets.keys.Nodup

theorem nodup_add {c : MReg} (ob : Obj) (k : Kind) (h : NodupKeys c) : NodupKeys (c.add ob k) :=
  Dict.nodup_keys_set h _ _

theorem nodup_has {c : MReg} (n : String) (h : NodupKeys c) : NodupKeys (c.has E.canon n).1 := by
  unfold NodupKeys MReg.has Core.has
  simp only
  split
  · exact h
  · split
    · exact Dict.nodup_keys_set h _ _
    · exact h

theorem nodup_sources {fuel : Nat} (ih : ∀ (d d' : MReg) (tgt t : String) (deps ds : List String) (u : Bool),
    fileInit E fuel d tgt deps u = .ok (d', t, ds) → NodupKeys d → NodupKeys d') (l : List String) (d d' : MReg)
    (h : addSources E fuel d l = .ok d') (hd : NodupKeys d) : NodupKeys d' := by
  unfold addSources at h
  induction l generalizing d with
  | nil => cases h; exact hd
  | cons r l ihl =>
    simp only [List.foldlM_cons, bind, Except.bind] at h
    split at h
    · cases h
    · rename_i d1 h1
      refine ihl d1 h ?_
      split at h1
      · split at h1
        · cases h1; exact nodup_has _ hd
        · split at h1
          · cases h1
          · rename_i x d2 t2 ds2 h2
            cases h1
            exact nodup_add _ _ (ih _ _ _ _ _ _ _ h2 (nodup_has _ hd))
      · cases h1; exact hd

theorem nodup_fileInit : ∀ (fuel : Nat) (d d' : MReg) (tgt t : String) (deps ds : List String) (u : Bool),
    fileInit E fuel d tgt deps u = .ok (d', t, ds) → NodupKeys d → NodupKeys d' := by
  intro fuel
  induction fuel with
  | zero => intro d d' tgt t deps ds u h; cases h
  | succ fuel ih =>
    intro d d' tgt t deps ds u h hd
    rw [fileInit] at h
    simp only at h
    split at h
    · cases h
    rename_i d1 deps1 h1
    split at h
    · cases h
    rename_i d2 h2
    cases h
    refine nodup_sources ih _ d1 _ h2 ?_
    split at h1
    · split at h1
      · cases h1
      · rename_i d3 t3 ds3 h3
        cases h1
        exact nodup_add _ _ (ih _ _ _ _ _ _ _ h3 hd)
    · cases h1; exact hd

theorem nodup_copy {w w' : World} {tgt src : String} {adddeps : List String}
    (h : copyG E lim w tgt src adddeps false = .ok w') (hd : NodupKeys w.dflt) : NodupKeys w'.dflt := by
  unfold copyG at h
  simp only at h
  split at h
  · cases h
  rename_i d h1
  have hd1 : NodupKeys d := by
    unfold sourceG at h1
    simp only at h1
    split at h1
    · cases h1; exact nodup_has _ hd
    · split at h1
      · cases h1
      · rename_i d2 t2 ds2 h2
        cases h1
        exact nodup_add _ _ (nodup_fileInit _ _ _ _ _ _ _ _ h2 (nodup_has _ hd))
  unfold makefileG at h
  split at h
  · cases h
  rename_i d2 t ds h2
  cases h
  exact nodup_add _ _ (nodup_fileInit _ _ _ _ _ _ _ _ h2 hd1)

/-- **C95 is false** for every call without `tgt` (the name of the installed file being no file pattern): after
`install_application(src, dst)` that name stands for a set of files that consists of itself; the target that would copy
the file cannot be reached under this name; and the evaluation of what has to be updated, which precedes the building of
any target in the default core, never returns. -/
theorem C95_violated {D : Dirs} {w w' : World} {src : String} {dst : Str} (hd : NodupKeys w.dflt)
    (hs : '*' ∉ (String.ofList (join D.path dst)).toList)
    (he : D.error = false) (h : installApplication E lim D w src dst none = .ok (w', true)) :
    ∃ o, (∀ o', Resolves E.canon w'.dflt.reg (String.ofList (join D.path dst)) o' ↔ o' = o) ∧
      w'.dflt.kind o = .fileset ∧ (∀ o', ObjDep E.canon w'.dflt.reg o o' ↔ o' = o) ∧
      ∀ updIf lim', updIf o = .ok false → ∀ m, updateNeeds E.canon w'.dflt.reg updIf lim' noMarks ≠ .ok m := by
  simp only [installApplication, he, Bool.false_eq_true, if_false, Option.getD_none] at h
  generalize String.ofList (join D.path dst) = a at h hs
  split at h
  · cases h
  rename_i w1 h1
  split at h
  · cases h
  rename_i w2 h2
  simp only [Except.ok.injEq, Prod.mk.injEq, and_true] at h
  subst h
  have hg : globs E ([] ++ [a]) = [a] := globs_id (by simpa using hs)
  unfold filesetG at h2
  rw [hg] at h2
  simp only at h2
  split at h2
  · cases h2
  rename_i d hd2
  simp only [World.addTo, Bool.false_eq_true, if_false, Except.ok.injEq] at h2
  subst h2
  have hnd : NodupKeys d := nodup_sources (fun d d' tgt t deps ds u => nodup_fileInit lim d d' tgt t deps ds u) _ _ _ hd2 (nodup_copy h1 hd)
  have hres : ∀ o', Resolves E.canon (d.add (makeObj a [a]) .fileset).reg a o' ↔ o' = d.reg.next := by
    intro o'
    have hget : (d.add (makeObj a [a]) .fileset).reg.targets.get a = some d.reg.next := by
      simp [MReg.add, Core.add, makeObj]
    simp only [Resolves, hget, Option.some.injEq, reduceCtorEq, false_and, or_false]
    exact eq_comm
  have hobj : (d.add (makeObj a [a]) .fileset).reg.obj d.reg.next = makeObj a [a] := by
    simp [MReg.add, Core.add]
  have hdep : ∀ o', ObjDep E.canon (d.add (makeObj a [a]) .fileset).reg d.reg.next o' ↔ o' = d.reg.next := by
    intro o'
    unfold ObjDep
    rw [hobj]
    constructor
    · rintro ⟨x, hx, hr⟩
      rw [List.mem_singleton.1 hx] at hr
      exact (hres o').1 hr
    · intro h
      exact ⟨a, List.mem_singleton.2 rfl, (hres o').2 h⟩
  refine ⟨d.reg.next, hres, by simp [MReg.add], hdep, fun updIf lim' hu m hm => ?_⟩
  obtain ⟨_, h2⟩ := updateNeeds_ok (nodup_add (makeObj a [a]) .fileset hnd) coherent_noMarks hm
  obtain ⟨b, _, ha, hg⟩ := h2 d.reg.next ⟨a, by simp [MReg.add, Core.add, makeObj]⟩ (by rw [hobj]; rfl)
  cases b with
  | true =>
    obtain ⟨o', hr, hx⟩ := ha.1 rfl
    have : ∀ x, ReflTransGen (ObjDep E.canon (d.add (makeObj a [a]) .fileset).reg) d.reg.next x → x = d.reg.next := by
      intro x hr
      induction hr with
      | refl => rfl
      | tail _ h ih => subst ih; exact (hdep _).1 h
    have := this _ hr
    subst this
    rw [hu] at hx
    cases hx
  | false => exact not_acc_of_cycle (.single ((hdep _).2 rfl)) (hg rfl).1

/-- C95, the part that holds: with a name `t` for the set that is not the path of the installed file, the call registers
under `t` a set consisting of the installed file, which is a file target that depends on `src`. -/
theorem C95_partial {D : Dirs} {w w' : World} {src t : String} {dst : Str}
    (hs : '*' ∉ (String.ofList (join D.path dst)).toList ∧ '*' ∉ (E.home src).toList)
    (hc : E.canon (String.ofList (join D.path dst)) = String.ofList (join D.path dst))
    (hh : E.home (String.ofList (join D.path dst)) = String.ofList (join D.path dst))
    (ht : t ≠ String.ofList (join D.path dst)) (he : D.error = false)
    (h : installApplication E lim D w src dst (some t) = .ok (w', true)) :
    ∃ o o', w'.dflt.reg.targets.get t = some o ∧ w'.dflt.kind o = .fileset ∧
      (w'.dflt.reg.obj o).deps = [String.ofList (join D.path dst)] ∧
      w'.dflt.reg.targets.get (String.ofList (join D.path dst)) = some o' ∧ w'.dflt.kind o' = .file ∧
      (w'.dflt.reg.obj o').tgt = String.ofList (join D.path dst) ∧ E.home src ∈ (w'.dflt.reg.obj o').deps := by
  simp only [installApplication, he, Bool.false_eq_true, if_false, Option.getD_some] at h
  generalize String.ofList (join D.path dst) = a at h hs hc hh ht
  split at h
  · cases h
  rename_i w1 h1
  split at h
  · cases h
  rename_i w2 h2
  simp only [Except.ok.injEq, Prod.mk.injEq, and_true] at h
  subst h
  -- the copy
  have hcopy : ∃ (d : MReg) (ds : List String), w1.dflt = d.add (makeObj a ds) .file ∧ E.home src ∈ ds := by
    unfold copyG at h1
    simp only at h1
    split at h1
    · cases h1
    rename_i d0 h0
    unfold makefileG at h1
    split at h1
    · cases h1
    rename_i d2 t2 ds2 hf
    obtain ⟨_, rfl, rfl, _⟩ := fileInit_grow _ _ _ _ _ _ _ _ hf
    simp only [World.addTo, Bool.false_eq_true, if_false, Except.ok.injEq] at h1
    subst h1
    refine ⟨d2, _, by rw [hh, hc], ?_⟩
    rw [globs_append]
    have : globs E [E.home src] = [E.home src] := globs_id (by simpa using hs.2)
    simp [this]
  obtain ⟨d, ds, hw1, hds⟩ := hcopy
  have hg : globs E ([] ++ [a]) = [a] := globs_id (by simpa using hs.1)
  unfold filesetG at h2
  rw [hg, hw1] at h2
  simp only at h2
  split at h2
  · cases h2
  rename_i d2 hd2
  simp only [World.addTo, Bool.false_eq_true, if_false, Except.ok.injEq] at h2
  subst h2
  -- registering the file as a source changes nothing
  have hd2 : d2 = d.add (makeObj a ds) .file := by
    have hget : (d.add (makeObj a ds) .file).reg.targets.get a = some d.reg.next := by
      simp [MReg.add, Core.add, makeObj]
    have hhas : (d.add (makeObj a ds) .file).has E.canon a = (d.add (makeObj a ds) .file, true) := by
      simp [MReg.has, Core.has, Dict.has, hget]
    simp only [addSources, List.foldlM_cons, List.foldlM_nil, bind, Except.bind, hhas, pure, Except.pure] at hd2
    split at hd2
    · cases hd2
    · rename_i h3
      cases hd2
      split at h3
      · cases h3; rfl
      · cases h3; rfl
  subst hd2
  refine ⟨d.reg.next + 1, d.reg.next, ?_, ?_, ?_, ?_, ?_, ?_, ?_⟩
  · simp [MReg.add, Core.add, makeObj]
  · simp [MReg.add, Core.add]
  · simp [MReg.add, Core.add, makeObj]
  · simp [MReg.add, Core.add, makeObj, Dict.get_set, ht]
  · simp [MReg.add, Core.add]
  · simp [MReg.add, Core.add, makeObj]
  · simpa [MReg.add, Core.add, makeObj] using hds

theorem copyG_adds {w w' : World} {a src : String} (hs : '*' ∉ (E.home src).toList)
    (h : copyG E lim w a src [] false = .ok w') :
    ∃ (d : MReg) (ds : List String), w'.dflt = d.add (makeObj (E.canon (E.home a)) ds) .file ∧ E.home src ∈ ds := by
  unfold copyG at h
  simp only at h
  split at h
  · cases h
  unfold makefileG at h
  split at h
  · cases h
  rename_i d2 t2 ds2 hf
  obtain ⟨_, rfl, rfl, _⟩ := fileInit_grow _ _ _ _ _ _ _ _ hf
  simp only [World.addTo, Bool.false_eq_true, if_false, Except.ok.injEq] at h
  subst h
  refine ⟨d2, _, rfl, ?_⟩
  rw [globs_append]
  have : globs E [E.home src] = [E.home src] := globs_id (by simpa using hs)
  simp [this]

/-- C94, the part that holds: with PREFIX, or with the entry `/usr/local/bin` or one that contains `\usr\local\bin` in
PATH, `install_application` and `install_shared_library` do register the installation if they return: the first one a target
of the given name (C95 says more), the second one a file target for the library in the directory of libraries, which depends
on `src`. -/
theorem C94_partial {v : Vars} {path : Str} (hp : v.PATH = some path)
    (h : (∃ p, v.PREFIX = some p) ∨ usrLocalBin ∈ entries path ∨ ∃ r ∈ entries path, winBin <:+: r) :
    ∃ D, load v = some D ∧ ∀ w w' src,
      (∀ dst tgt b, installApplication E lim D w src dst tgt = .ok (w', b) →
        b = true ∧ ∃ o, w'.dflt.reg.targets.get (tgt.getD (String.ofList (join D.path dst))) = some o) ∧
      ∀ newname r, '*' ∉ (E.home src).toList → installSharedLibrary E lim D w src newname = .ok (w', r) →
        ∃ f o, r = some f ∧ f = String.ofList (join D.libraries (newname.getD (basename src.toList))) ∧
          w'.dflt.reg.targets.get (E.canon (E.home f)) = some o ∧ w'.dflt.kind o = .file ∧
          (w'.dflt.reg.obj o).tgt = E.canon (E.home f) ∧ E.home src ∈ (w'.dflt.reg.obj o).deps := by
  have hload : ∃ D, load v = some D ∧ D.error = false := by
    unfold load findApplicationPath
    rw [hp]
    cases hpre : v.PREFIX with
    | some p => simp
    | none =>
      by_cases hm : usrLocalBin ∈ entries path
      · simp [hm]
      · rcases h with ⟨p, h⟩ | h | ⟨r, hr, h⟩
        · rw [hpre] at h; cases h
        · exact absurd h hm
        · obtain ⟨x, hx⟩ : ∃ x, firstWith winBin (entries path) = some x :=
            Option.isSome_iff_exists.1 (List.find?_isSome.2 ⟨r, hr, by simpa using h⟩)
          simp [hm, hx]
  obtain ⟨D, hD, he⟩ := hload
  refine ⟨D, hD, fun w w' src => ⟨?_, ?_⟩⟩
  · intro dst tgt b h
    simp only [installApplication, he, Bool.false_eq_true, if_false] at h
    split at h
    · cases h
    split at h
    · cases h
    rename_i w2 h2
    cases h
    refine ⟨rfl, ?_⟩
    unfold filesetG at h2
    simp only at h2
    split at h2
    · cases h2
    rename_i d _
    simp only [World.addTo, Bool.false_eq_true, if_false, Except.ok.injEq] at h2
    subst h2
    exact ⟨d.reg.next, by simp [MReg.add, Core.add, makeObj]⟩
  · intro newname r hs h
    simp only [installSharedLibrary, he, Bool.false_eq_true, if_false] at h
    split at h
    · cases h
    rename_i w2 h2
    cases h
    obtain ⟨d, ds, e, hmem⟩ := copyG_adds hs h2
    rw [e]
    refine ⟨_, d.reg.next, rfl, rfl, ?_, ?_, ?_, ?_⟩
    · simp [MReg.add, Core.add, makeObj]
    · simp [MReg.add]
    · simp [MReg.add, Core.add, makeObj]
    · simpa [MReg.add, Core.add, makeObj] using hmem

/-! ### concrete cases -/

/-- C94_partial: a call of `install_shared_library` that returns -/
example : (installSharedLibrary srcEnv 50 ⟨"/s".toList, [], "/s".toList, false⟩ ⟨noReg, noReg⟩ "/s/a"
    (some "b".toList)).isOk = true ∧ '*' ∉ (srcEnv.home "/s/a").toList ∧
    usrLocalBin ∈ entries "/bin:/usr/local/bin".toList := by decide +kernel

example : load ⟨some "/opt/bin:/usr/local/bin:/usr/bin".toList, none⟩ =
    some ⟨"/usr/local/bin".toList, "/usr/local/include".toList, "/usr/lib".toList, false⟩ := by decide +kernel
example : load ⟨some "/usr/bin".toList, some "/data".toList⟩ =
    some ⟨"/data/bin".toList, "/data/include".toList, "/data/lib".toList, false⟩ := by decide +kernel
example : load ⟨some "/bin:/opt/usr/local/bin:/usr/bin".toList, none⟩ =
    some ⟨"/opt/usr/local/bin".toList, "/usr/local/include".toList, "/usr/lib".toList, true⟩ := by decide +kernel
/-- C93: no usable entry -/
example : load ⟨some "/bin:/sbin".toList, none⟩ = none := by decide +kernel
/-- C94: the hypotheses hold for an ordinary PATH -/
example : usrLocalBin ∉ entries "/bin:/usr/bin".toList ∧ (∀ r ∈ entries "/bin:/usr/bin".toList, ¬ winBin <:+: r) ∧
    ∃ r ∈ entries "/bin:/usr/bin".toList, usrBin <:+: r := by decide +kernel

/-- C95: a call that returns, in the environment of C43's witness, without and with a name for the set -/
example : (installApplication srcEnv 50 ⟨"/s".toList, [], [], false⟩ ⟨noReg, noReg⟩ "/s/a" "b".toList none).isOk = true ∧
    (installApplication srcEnv 50 ⟨"/s".toList, [], [], false⟩ ⟨noReg, noReg⟩ "/s/a" "b".toList (some "install")).isOk = true ∧
    NodupKeys noReg := ⟨by decide +kernel, by decide +kernel, List.nodup_nil⟩

end Licant.Misc.Install
