/-
Model and properties of `clean` (licant/make.py): C39, C41, C70, C75.
-/
import Verif.Make.Same

set_option autoImplicit false

namespace Licant.Make
open Licant.Py Licant.Core Relation

variable {α : Type} {P : Proj α} {canon : String → String} {root : Nat}

/-! ### model -/

/-- The files a shell command means by an unquoted text: the words of the text; `abs` gives the file
a word stands for, seen from the working directory.  Simplification: the only character with a
meaning to the shell is the space. -/
def shellWords (abs : String → String) (text : String) : List String :=
  ((text.toList.splitOnP (· = ' ')).filter (· ≠ [])).map fun w => abs (String.ofList w)

/-- the program `rm -f`: removes the named files that exist; directories are not removed -/
def rmF (fs : FS α) (ws : List String) : FS α := fun q =>
  match fs q with
  | some ⟨t, some v⟩ => if q ∈ ws then none else some ⟨t, some v⟩
  | x => x

/-- make.py:95-97, the body of the loop of `clean` for one target: `if_file_and_exist` (278-283) holds
for `FileTarget`s whose (cached) status says they exist.  `clr` is `None` for sources (219, 352),
does nothing for directories (206-208); for files it runs `rm -f {tgt}` in a shell, unquoted
(160-162, 46-58), and refreshes the cache. -/
def cleanOne (P : Proj α) (words : String → List String) (s : FS α × FileCache) (o : Nat) :
    FS α × FileCache :=
  match P.kind o with
  | .file =>
    let e := getInfo s.1 s.2 (P.path o)
    if e.1.exist then
      let fs := rmF s.1 (words (P.path o))
      (fs, updateInfo fs e.2 (P.path o))
    else (s.1, e.2)
  | .source | .dir => (s.1, (getInfo s.1 s.2 (P.path o)).2)
  | .fileset | .other => s

/-- make.py:91-97 `MakeFileTarget.clean`; `lim` is the recursion limit, `lcache` the closure cache
of the core. -/
def clean (P : Proj α) (canon : String → String) (words : String → List String) (lim : Nat)
    (lcache : Cache) (root : Nat) (fs : FS α) (cache : FileCache) : Except Err (FS α × FileCache) := do
  let r ← dependsAsSet canon P.reg lim lcache (P.path root) true
  let stree ← r.1.mapM (Core.get canon P.reg)
  .ok (stree.foldl (cleanOne P words) (fs, cache))

/-! ### C39 -/

/-- a regular file is at `p` -/
def Regular (fs : FS α) (p : String) : Prop := ∃ t v, fs p = some ⟨t, some v⟩

theorem rmF_single {fs : FS α} {p q : String} :
    rmF fs [p] q = fs q ∨ (q = p ∧ Regular fs p ∧ rmF fs [p] q = none) := by
  unfold rmF
  split
  · rename_i t v h
    by_cases hq : q = p
    · subst hq; exact Or.inr ⟨rfl, ⟨t, v, h⟩, by simp⟩
    · left; simp [hq, h]
  · exact Or.inl rfl

theorem rmF_self {fs : FS α} {p : String} (h : Regular fs p) : rmF fs [p] p = none := by
  obtain ⟨t, v, h⟩ := h
  simp [rmF, h]

theorem rmF_ne {fs : FS α} {p q : String} (h : q ≠ p) : rmF fs [p] q = fs q := by
  rcases rmF_single (fs := fs) (p := p) (q := q) with h1 | ⟨h1, _⟩
  · exact h1
  · exact absurd h1 h

/-- what `clean` does with one target -/
theorem cleanOne_eq {words : String → List String} {fs : FS α} {cache : FileCache} {o : Nat}
    (hw : P.kind o = .file → words (P.path o) = [P.path o]) :
    let r := cleanOne P words (fs, cache) o
    (P.kind o = .file ∧ (view fs cache (P.path o)).exist = true ∧ r.1 = rmF fs [P.path o] ∧
      ∀ p, view r.1 r.2 p = if p = P.path o then fileinfo r.1 p else view fs cache p) ∨
    (¬ (P.kind o = .file ∧ (view fs cache (P.path o)).exist = true) ∧ r.1 = fs ∧
      view r.1 r.2 = view fs cache) := by
  intro r
  have hr : r = cleanOne P words (fs, cache) o := rfl
  unfold cleanOne at hr
  cases hk : P.kind o with
  | file =>
    rw [hk] at hr
    simp only [getInfo_fst] at hr
    split at hr
    · rename_i he
      left
      rw [hw hk] at hr
      rw [hr]
      refine ⟨rfl, he, rfl, ?_⟩
      intro p
      simp only
      rw [view_updateInfo]
      by_cases hp : P.path o = p
      · subst hp; simp
      · have hp' : p ≠ P.path o := fun h => hp h.symm
        simp only [hp, hp', if_false]
        rw [view_congr (rmF_ne hp'), view_getInfo]
    · rename_i he
      right
      rw [hr]
      exact ⟨fun h => he h.2, rfl, view_getInfo _ _⟩
  | source => rw [hk] at hr; right; rw [hr]; exact ⟨fun h => (by cases h.1), rfl, view_getInfo _ _⟩
  | dir => rw [hk] at hr; right; rw [hr]; exact ⟨fun h => (by cases h.1), rfl, view_getInfo _ _⟩
  | fileset => rw [hk] at hr; right; rw [hr]; exact ⟨fun h => (by cases h.1), rfl, rfl⟩
  | other => rw [hk] at hr; right; rw [hr]; exact ⟨fun h => (by cases h.1), rfl, rfl⟩

theorem cleanAll {words : String → List String} : ∀ (l : List Nat) (fs : FS α) (cache : FileCache),
    (∀ o ∈ l, P.kind o = .file → words (P.path o) = [P.path o]) →
    let r := l.foldl (cleanOne P words) (fs, cache)
    (∀ o ∈ l, P.kind o = .file → (view fs cache (P.path o)).exist = true →
      view r.1 r.2 (P.path o) = fileinfo r.1 (P.path o) ∧
      (Regular fs (P.path o) → r.1 (P.path o) = none)) ∧
    (∀ p, r.1 p = fs p ∨ (r.1 p = none ∧ Regular fs p ∧
      ∃ o ∈ l, P.kind o = .file ∧ P.path o = p ∧ (view fs cache p).exist = true)) ∧
    (∀ p, view r.1 r.2 p = view fs cache p ∨ view r.1 r.2 p = fileinfo r.1 p) := by
  intro l
  induction l with
  | nil => intro fs cache _; exact ⟨by simp, fun p => Or.inl rfl, fun p => Or.inl rfl⟩
  | cons a l ih =>
    intro fs cache hw
    simp only [List.foldl_cons]
    have h1 := cleanOne_eq (P := P) (words := words) (fs := fs) (cache := cache) (o := a)
      (hw a (by simp))
    generalize cleanOne P words (fs, cache) a = s1 at h1
    obtain ⟨fs1, cache1⟩ := s1
    obtain ⟨i1, i2, i3⟩ := ih fs1 cache1 (fun o ho => hw o (by simp [ho]))
    generalize l.foldl (cleanOne P words) (fs1, cache1) = r at *
    simp only at h1
    rcases h1 with ⟨hk, hex, rfl, hv⟩ | ⟨hno, rfl, hv⟩
    · -- `a` is removed
      have key : ∀ o, P.path o = P.path a → view r.1 r.2 (P.path o) = fileinfo r.1 (P.path o) ∧
          (Regular fs (P.path o) → r.1 (P.path o) = none) := by
        intro o hpo
        rw [hpo]
        refine ⟨?_, ?_⟩
        · rcases i3 (P.path a) with h | h
          · have hva := hv (P.path a)
            simp only [if_true] at hva
            rcases i2 (P.path a) with h2 | ⟨h2, _, o', ho', hk', hp', he'⟩
            · rw [h, hva, fileinfo_congr h2]
            · have := (i1 o' ho' hk' (by rw [hp']; exact he')).1
              rw [hp'] at this
              exact this
          · exact h
        · intro hreg
          rcases i2 (P.path a) with h2 | ⟨h2, _⟩
          · rw [h2, rmF_self hreg]
          · exact h2
      refine ⟨?_, ?_, ?_⟩
      · intro o ho hko heo
        by_cases hpo : P.path o = P.path a
        · exact key o hpo
        · have ho' : o ∈ l := by
            rcases List.mem_cons.1 ho with rfl | h
            · exact absurd rfl hpo
            · exact h
          have hvo := hv (P.path o)
          simp only [hpo, if_false] at hvo
          obtain ⟨h2, h3⟩ := i1 o ho' hko (by rw [hvo]; exact heo)
          refine ⟨h2, fun hreg => h3 ?_⟩
          obtain ⟨t, v, h⟩ := hreg
          exact ⟨t, v, by rw [rmF_ne hpo]; exact h⟩
      · intro p
        by_cases hp : p = P.path a
        · subst hp
          by_cases hreg : Regular fs (P.path a)
          · right
            exact ⟨(key a rfl).2 hreg, hreg, a, by simp, hk, rfl, hex⟩
          · left
            have hsame : rmF fs [P.path a] (P.path a) = fs (P.path a) := by
              rcases rmF_single (fs := fs) (p := P.path a) (q := P.path a) with h | ⟨_, h, _⟩
              · exact h
              · exact absurd h hreg
            rcases i2 (P.path a) with h | ⟨_, ⟨t, v, h⟩, _⟩
            · rw [h, hsame]
            · rw [hsame] at h; exact absurd ⟨t, v, h⟩ hreg
        · rcases i2 p with h | ⟨h, ⟨t, v, hreg⟩, o, ho, hko, hpo, heo⟩
          · left; rw [h, rmF_ne hp]
          · right
            rw [rmF_ne hp] at hreg
            have hvp := hv p
            simp only [hp, if_false] at hvp
            exact ⟨h, ⟨t, v, hreg⟩, o, by simp [ho], hko, hpo, by rw [← hvp]; exact heo⟩
      · intro p
        by_cases hp : p = P.path a
        · subst hp; exact Or.inr (key a rfl).1
        · rcases i3 p with h | h
          · have hvp := hv p
            simp only [hp, if_false] at hvp
            exact Or.inl (by rw [h, hvp])
          · exact Or.inr h
    · rw [hv] at i1 i2 i3
      refine ⟨?_, ?_, i3⟩
      · intro o ho hko heo
        rcases List.mem_cons.1 ho with rfl | ho
        · exact absurd ⟨hko, heo⟩ hno
        · exact i1 o ho hko heo
      · intro p
        rcases i2 p with h | ⟨h, hreg, o, ho, h'⟩
        · exact Or.inl h
        · exact Or.inr ⟨h, hreg, o, by simp [ho], h'⟩

/-- the objects `clean` goes through are those of the closure -/
theorem clean_ok (hS : Sound P canon) (hroot : Registered P.reg root) {words : String → List String}
    {lim : Nat} {lcache : Cache} (hl : ∀ t b, lcache.get (.pair t b) = none) {fs fs' : FS α}
    {cache cache' : FileCache}
    (h : clean P canon words lim lcache root fs cache = .ok (fs', cache')) :
    ∃ l : List Nat, (∀ o, o ∈ l ↔ Closure canon P.reg root o) ∧
      l.foldl (cleanOne P words) (fs, cache) = (fs', cache') := by
  unfold clean at h
  simp only [bind, Except.bind] at h
  split at h
  · cases h
  · rename_i p hp
    obtain ⟨names, ca⟩ := p
    simp only at h
    split at h
    · cases h
    · rename_i os hos
      simp only [Except.ok.injEq] at h
      refine ⟨os, ?_, h⟩
      have hself := resolves_self (canon := canon) hS.consistent hroot
      obtain ⟨_, _, hmem⟩ := closure_spec lim lcache _ _ true names hl hp
      obtain ⟨cn1, cn2⟩ := closure_names hself
      have hmem' : ∀ x, x ∈ names ↔ ReflTransGen (NameDep canon P.reg) (P.path root) x := by
        intro x
        rw [hmem, reflTransGen_iff_eq_or_transGen]
        simp only [true_and]
        exact or_comm
      intro o
      rw [mem_deplist (mapM_get.1 hos)]
      constructor
      · rintro ⟨x, hx, hr⟩; exact cn1 x o ((hmem' x).1 hx) hr
      · intro ho
        obtain ⟨x, hx, hr⟩ := cn2 o ho
        exact ⟨x, (hmem' x).2 hx, hr⟩

/-- a path without spaces, which stands for the file of this path -/
def Plain (abs : String → String) (p : String) : Prop := p ≠ "" ∧ ' ' ∉ p.toList ∧ abs p = p

theorem plain_words {abs : String → String} {p : String} (h : Plain abs p) :
    shellWords abs p = [p] := by
  unfold shellWords
  have hs : p.toList.splitOnP (fun c => decide (c = ' ')) = [p.toList] := by
    apply List.splitOnP_eq_singleton
    intro x hx
    simp only [decide_eq_false_iff_not]
    rintro rfl
    exact h.2.1 hx
  have hne : p.toList ≠ [] := by
    intro e
    exact h.1 (by rw [← String.ofList_toList (s := p), e])
  rw [hs]
  simp [hne, h.2.2]

/-- C39: `clean` of `root`.  Provided the shell understands the paths of the file targets (no spaces):
* exactly the regular files that are file targets of the closure and believed to exist are deleted;
* nothing else changes, in particular sources, directories and files outside of the closure;
* afterwards the program believes that the deleted files are missing. -/
theorem C39_clean (hS : Sound P canon) (hroot : Registered P.reg root) {abs : String → String}
    (hplain : ∀ o, Closure canon P.reg root o → P.kind o = .file → Plain abs (P.path o))
    {lim : Nat} {lcache : Cache} (hl : ∀ t b, lcache.get (.pair t b) = none) {fs fs' : FS α}
    {cache cache' : FileCache}
    (h : clean P canon (shellWords abs) lim lcache root fs cache = .ok (fs', cache')) :
    (∀ o, Closure canon P.reg root o → P.kind o = .file → (view fs cache (P.path o)).exist = true →
      Regular fs (P.path o) → fs' (P.path o) = none ∧ (view fs' cache' (P.path o)).exist = false) ∧
    (∀ p, fs' p ≠ fs p → fs' p = none ∧ Regular fs p ∧
      ∃ o, Closure canon P.reg root o ∧ P.kind o = .file ∧ P.path o = p ∧
        (view fs cache p).exist = true) ∧
    (∀ o, Registered P.reg o → P.kind o = .source ∨ P.kind o = .dir →
      fs' (P.path o) = fs (P.path o)) := by
  obtain ⟨l, hmem, hfold⟩ := clean_ok hS hroot hl h
  have hc := cleanAll (P := P) (words := shellWords abs) l fs cache
    (fun o ho hk => plain_words (hplain o ((hmem o).1 ho) hk))
  rw [hfold] at hc
  obtain ⟨h1, h2, _⟩ := hc
  have h2' : ∀ p, fs' p ≠ fs p → fs' p = none ∧ Regular fs p ∧
      ∃ o, Closure canon P.reg root o ∧ P.kind o = .file ∧ P.path o = p ∧
        (view fs cache p).exist = true := by
    intro p hne
    rcases h2 p with h | ⟨h, hr, o, ho, hko, hpo, he⟩
    · exact absurd h hne
    · exact ⟨h, hr, o, (hmem o).1 ho, hko, hpo, he⟩
  refine ⟨?_, h2', ?_⟩
  · intro o ho hk he hr
    obtain ⟨h3, h4⟩ := h1 o ((hmem o).2 ho) hk he
    have h4 : fs' (P.path o) = none := h4 hr
    refine ⟨h4, ?_⟩
    simp only at h3
    rw [h3, fileinfo_exist]
    show (fs' (P.path o)).isSome = false
    rw [h4]; rfl
  · intro o ho hk
    by_contra hne
    obtain ⟨_, _, o', ho', hk', hp', _⟩ := h2' _ hne
    have := path_inj hS (closure_registered hroot ho') ho hp'
    subst this
    rcases hk with hk | hk <;> rw [hk'] at hk <;> cases hk

/-- C39, totality: `clean` returns if the closure is registered and the recursion limit is large
enough. -/
theorem C39_returns
    (hall : AllRegistered canon P.reg (P.path root))
    {words : String → List String} {lim : Nat} (hlim : (allDeps P.reg).length + 1 < lim) (fs : FS α)
    (cache : FileCache) : ∃ r, clean P canon words lim [] root fs cache = .ok r := by
  obtain ⟨names, ca, h⟩ := ((C17_closure canon P.reg lim (P.path root) true).2 hlim).1 hall
  obtain ⟨_, _, hmem⟩ := closure_spec lim [] _ _ true names (by simp) h
  have hget : ∃ os, names.mapM (Core.get canon P.reg) = .ok os := by
    refine mapM_total ?_
    intro x hx
    obtain ⟨o, ho⟩ := hall x (by
      rcases (hmem x).1 hx with h | ⟨_, rfl⟩
      · exact h.to_reflTransGen
      · exact .refl)
    exact ⟨o, get_ok.2 ho⟩
  obtain ⟨os, hos⟩ := hget
  refine ⟨os.foldl (cleanOne P words) (fs, cache), ?_⟩
  unfold clean
  simp only [bind, Except.bind, h, hos]

/-- `clean` of the built demo project deletes the object and the program, but not the source and the
directory -/
example : Sound demo id ∧ Registered demo.reg 4 ∧
    (∀ o, Closure id demo.reg 4 o → demo.kind o = .file → Plain id (demo.path o)) ∧
    ∃ fs' cache', clean demo id (shellWords id) 10 [] 4 demoS.fs [] = .ok (fs', cache') ∧
      (demoS.fs "d/app").isSome ∧ fs' "d/app" = none ∧ fs' "d/a.o" = none ∧
      (fs' "a.c").isSome ∧ (fs' "d").isSome := by
  refine ⟨demo_sound, demo_reg_iff.2 (by decide), ?_, _, _, rfl, by decide +kernel, by decide +kernel,
    by decide +kernel, by decide +kernel, by decide +kernel⟩
  intro o ho _
  have := demo_reg_iff.1 (closure_registered (demo_reg_iff.2 (by decide)) ho)
  have ho : o = 0 ∨ o = 1 ∨ o = 2 ∨ o = 3 ∨ o = 4 := by omega
  rcases ho with rfl | rfl | rfl | rfl | rfl <;> exact ⟨by decide, by decide, rfl⟩

/-- the hypotheses of `C39_returns` hold of the demo project -/
example : AllRegistered id demo.reg (demo.path 4) :=
  (closure_spec 10 [] _ "all" true _ (by simp) (rfl : dependsAsSet id demo.reg 10 [] "all" true =
    .ok (_, _))).2.1

/-! ### C75 -/

/-- one file target whose path contains a space -/
def spaced : Proj Nat where
  reg :=
    { targets := [("/p/my notes", 0)]
      obj := fun
        | 0 => ⟨"/p/my notes", [], true, [], "makefile"⟩
        | _ => ⟨"", [], false, [], "action"⟩
      next := 1 }
  kind := fun
    | 0 => .file
    | _ => .other
  force := fun _ => false
  upd := fun _ => .ok true
  cmd := fun _ _ => 0
  parents := fun _ => []

/-- `/p/my` and `/p/notes` are files of the user, `/p/my notes` was built -/
def spacedFs : FS Nat := fun p =>
  if p = "/p/my notes" then some ⟨3, some 0⟩
  else if p = "/p/my" then some ⟨1, some 1⟩
  else if p = "/p/notes" then some ⟨1, some 2⟩
  else none

/-- what a word means in the directory `/p` -/
def inP (w : String) : String := if w.toList.head? = some '/' then w else "/p/" ++ w

/-- C75 is false of the code: `clean` of a target whose path contains a space deletes files that are
no targets at all and leaves the target. -/
theorem C75_violated : ∃ fs' cache',
    clean spaced id (shellWords inP) 10 [] 0 spacedFs [] = .ok (fs', cache') ∧
    (∃ e, spacedFs "/p/my" = some e) ∧ fs' "/p/my" = none ∧
    (∃ e, spacedFs "/p/notes" = some e) ∧ fs' "/p/notes" = none ∧
    (∀ o, Registered spaced.reg o → spaced.path o ≠ "/p/my" ∧ spaced.path o ≠ "/p/notes") ∧
    (fs' "/p/my notes").isSome := by
  refine ⟨_, _, rfl, ⟨_, rfl⟩, by decide +kernel, ⟨_, rfl⟩, by decide +kernel, ?_, by decide +kernel⟩
  rintro o ⟨n, hn⟩
  have := Dict.mem_of_get hn
  simp only [spaced, List.mem_cons, Prod.mk.injEq, List.not_mem_nil, or_false] at this
  rw [this.2]
  decide

/-- C75, proved part: for paths without spaces the command line `rm -f {tgt}` names exactly
the target, so `clean` deletes only targets (C39).
Missing: paths with spaces or other special characters (`C75_violated`). -/
theorem C75_partial (hS : Sound P canon) (hroot : Registered P.reg root) {abs : String → String}
    (hplain : ∀ o, Closure canon P.reg root o → P.kind o = .file → Plain abs (P.path o))
    {lim : Nat} {lcache : Cache} (hl : ∀ t b, lcache.get (.pair t b) = none) {fs fs' : FS α}
    {cache cache' : FileCache}
    (h : clean P canon (shellWords abs) lim lcache root fs cache = .ok (fs', cache')) (p : String)
    (hp : ∀ o, Closure canon P.reg root o → P.kind o = .file → P.path o ≠ p) : fs' p = fs p := by
  by_contra hne
  obtain ⟨_, _, o, ho, hk, hpo, _⟩ := (C39_clean hS hroot hplain hl h).2.1 p hne
  exact hp o ho hk hpo

/-! ### C41 -/

/-- C41: directories.
* What is known about directories matters only as far as their existence is concerned: their time
  stamps never make anything out of date.
* A build does not touch a directory target that exists.
* `clean` does not remove directories. -/
theorem C41_directories (hS : Sound P canon) (hroot : Registered P.reg root) :
    (∀ (V V' : String → Info) o, Registered P.reg o →
      (∀ x, Registered P.reg x → P.kind x = .file ∨ P.kind x = .source →
        V (P.path x) = V' (P.path x)) →
      (∀ x, Registered P.reg x → P.kind x = .dir → (V (P.path x)).exist = (V' (P.path x)).exist) →
      (NeedsWork P canon V o ↔ NeedsWork P canon V' o)) ∧
    (∀ (fs : FS α) cache (B : Invocation P canon root fs cache) clock tr s, B.Run clock tr s →
      ∀ b e, Registered P.reg b → P.kind b = .dir → fs (P.path b) = some e →
        s.fs (P.path b) = some e) ∧
    (∀ (fs fs' : FS α) cache cache' abs lim lcache, (∀ t b, lcache.get (.pair t b) = none) →
      (∀ o, Closure canon P.reg root o → P.kind o = .file → Plain abs (P.path o)) →
      clean P canon (shellWords abs) lim lcache root fs cache = .ok (fs', cache') →
      ∀ p t, fs p = some ⟨t, none⟩ → fs' p = some ⟨t, none⟩) := by
  refine ⟨?_, ?_, ?_⟩
  · intro V V' o ho hfile hdir
    have key : ∀ (V V' : String → Info), (∀ x, Registered P.reg x → P.kind x = .file ∨ P.kind x = .source →
        V (P.path x) = V' (P.path x)) →
        (∀ x, Registered P.reg x → P.kind x = .dir → (V (P.path x)).exist = (V' (P.path x)).exist) →
        NeedsWork P canon V o → NeedsWork P canon V' o := by
      rintro V V' hfile hdir ⟨x, hx, hood⟩
      have hrx := closure_registered ho hx
      refine ⟨x, hx, ?_⟩
      unfold OutOfDate at hood ⊢
      have hfs : (P.kind x = .file ∨ P.kind x = .source) → (P.force x = true ∨ (V (P.path x)).exist = false ∨
          ∃ o', InputOf P canon x o' ∧ (V (P.path o')).mtime > (V (P.path x)).mtime) →
          (P.force x = true ∨ (V' (P.path x)).exist = false ∨
          ∃ o', InputOf P canon x o' ∧ (V' (P.path o')).mtime > (V' (P.path x)).mtime) := by
        intro hk h
        rw [hfile x hrx hk] at h
        rcases h with h | h | ⟨o', h1, h2⟩
        · exact Or.inl h
        · exact Or.inr (Or.inl h)
        · rw [hfile o' h1.registered h1.kind] at h2
          exact Or.inr (Or.inr ⟨o', h1, h2⟩)
      cases hk : P.kind x with
      | file => rw [hk] at hood; exact hfs (Or.inl hk) hood
      | source => rw [hk] at hood; exact hfs (Or.inr hk) hood
      | dir => rw [hk] at hood; simp only at hood ⊢; rw [← hdir x hrx hk]; exact hood
      | fileset => rw [hk] at hood; exact hood
      | other => rw [hk] at hood; exact hood
    exact ⟨key V V' hfile hdir, key V' V (fun x h h' => (hfile x h h').symm) (fun x h h' => (hdir x h h').symm)⟩
  · intro fs cache B clock tr s hx b e hb hk he
    rcases fs_change hx (P.path b) with h | ⟨i, v, o, _, _, _, h2, h3, h4, _⟩ | ⟨h, _⟩
    · rw [h, he]
    · exfalso
      have := path_inj hS (B.reg hS hroot h2) hb h4
      subst this
      rw [h3] at hk; cases hk
    · rw [he] at h; cases h
  · intro fs fs' cache cache' abs lim lcache hl hplain h p t hp
    by_contra hne
    obtain ⟨_, ⟨t', v, hr⟩, _⟩ := (C39_clean hS hroot hplain hl h).2.1 p (by rw [hp]; exact hne)
    rw [hp] at hr; cases hr

/-- a rebuild of the demo project with the directory `d` present -/
example : ∃ s, demoB3.Run 21 demoTr3 s ∧ (demoFs3 "d").map (·.mtime) = (s.fs "d").map (·.mtime) ∧
    (demoFs3 "d").isSome ∧ (s.fs "d/app").map (·.mtime) ≠ (demoFs3 "d/app").map (·.mtime) :=
  ⟨_, run_iff.2 rfl, by decide +kernel, by decide +kernel, by decide +kernel⟩

/-! ### C70 -/

/-- install.py:155-163: the target `install_library` registers for `uninstall=name`; `installed` are the
paths of the installed files -/
def uninstallObj (name : String) (installed : List String) : Core.Obj :=
  ⟨name, [], true, installed, "makefile"⟩

/-- `clean` of the `uninstall` target of `install_library` changes nothing, for every registry, because
the installed files are only weak dependencies. -/
theorem uninstall_nothing (hS : Sound P canon) (hroot : Registered P.reg root)
    (hk : P.kind root = .fileset) {name : String} {installed : List String}
    (hd : P.reg.obj root = uninstallObj name installed)
    {words : String → List String} {lim : Nat} {lcache : Cache}
    (hl : ∀ t b, lcache.get (.pair t b) = none) {fs fs' : FS α} {cache cache' : FileCache}
    (h : clean P canon words lim lcache root fs cache = .ok (fs', cache')) : fs' = fs := by
  obtain ⟨l, hmem, hfold⟩ := clean_ok hS hroot hl h
  have hall : ∀ o ∈ l, o = root := by
    intro o ho
    have := (hmem o).1 ho
    rcases ReflTransGen.cases_head this with rfl | ⟨x, ⟨d, hdm, _⟩, _⟩
    · rfl
    · rw [hd] at hdm; cases hdm
  have : ∀ (l : List Nat) (s : FS α × FileCache), (∀ o ∈ l, o = root) →
      l.foldl (cleanOne P words) s = s := by
    intro l
    induction l with
    | nil => intro s _; rfl
    | cons a l ih =>
      intro s h
      have ha := h a (by simp)
      subst ha
      rw [List.foldl_cons]
      have : cleanOne P words s a = s := by unfold cleanOne; rw [hk]
      rw [this]
      exact ih s (fun o ho => h o (by simp [ho]))
  rw [this l _ hall] at hfold
  cases hfold
  rfl

/-- a project installing the header `h` to `/i/h` -/
def installing : Proj Nat where
  reg :=
    { targets := [("/s/h", 0), ("/i/h", 1), ("headers:///s", 2), ("uninstall", 3), ("install", 4)]
      obj := fun
        | 0 => ⟨"/s/h", [], true, [], "makefile"⟩
        | 1 => ⟨"/i/h", ["/s/h"], true, [], "makefile"⟩
        | 2 => ⟨"headers:///s", ["/i/h"], true, [], "makefile"⟩
        | 3 => uninstallObj "uninstall" ["/i/h"]
        | 4 => ⟨"install", ["headers:///s"], true, [], "makefile"⟩
        | _ => ⟨"", [], false, [], "action"⟩
      next := 5 }
  kind := fun
    | 0 => .source
    | 1 => .file
    | 2 => .fileset
    | 3 => .fileset
    | 4 => .fileset
    | _ => .other
  force := fun _ => false
  upd := fun _ => .ok true
  cmd := fun _ _ => 0
  parents := fun _ => []

/-- C70 is false of the code: the installed header is still there after `uninstall`. -/
theorem C70_violated : ∃ fs : FS Nat, ∃ fs' cache',
    (installing.reg.obj 3).weakdeps = ["/i/h"] ∧
    clean installing id (shellWords id) 10 [] 3 fs [] = .ok (fs', cache') ∧
    (fs' "/i/h").isSome ∧ fs' = fs := by
  refine ⟨fun p => if p = "/s/h" then some ⟨1, some 7⟩ else if p = "/i/h" then some ⟨2, some 7⟩ else none,
    _, _, rfl, rfl, by decide +kernel, rfl⟩

/-- C70, proved part: `clean` of the `install` target, which depends on the installed files, deletes
them.  Missing: the `uninstall` target does not (`uninstall_nothing`). -/
theorem C70_partial (hS : Sound P canon) (hroot : Registered P.reg root) {abs : String → String}
    (hplain : ∀ o, Closure canon P.reg root o → P.kind o = .file → Plain abs (P.path o))
    {lim : Nat} {lcache : Cache} (hl : ∀ t b, lcache.get (.pair t b) = none) {fs fs' : FS α}
    {cache cache' : FileCache}
    (h : clean P canon (shellWords abs) lim lcache root fs cache = .ok (fs', cache'))
    {headers : Nat} (h1 : ObjDep canon P.reg root headers) {o : Nat}
    (h2 : o = headers ∨ ObjDep canon P.reg headers o) (hk : P.kind o = .file)
    (he : (view fs cache (P.path o)).exist = true) (hr : Regular fs (P.path o)) :
    fs' (P.path o) = none := by
  refine ((C39_clean hS hroot hplain hl h).1 o ?_ hk he hr).1
  rcases h2 with rfl | h2
  · exact .single h1
  · exact .tail (.single h1) h2

example : ∃ fs' cache', clean installing id (shellWords id) 10 [] 4
    (fun p => if p = "/s/h" then some ⟨1, some 7⟩ else if p = "/i/h" then some ⟨2, some 7⟩ else none) [] =
      .ok (fs', cache') ∧ fs' "/i/h" = none ∧ (fs' "/s/h").isSome ∧
    ObjDep id installing.reg 4 2 ∧ ObjDep id installing.reg 2 1 :=
  ⟨_, _, rfl, by decide +kernel, by decide +kernel, ⟨"headers:///s", by decide, Or.inl rfl⟩,
    ⟨"/i/h", by decide, Or.inl rfl⟩⟩

end Licant.Make
