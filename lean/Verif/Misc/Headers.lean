/-
Model of `install_headers` of `licant/install.py`.
C107: every header is installed at its place.
-/
import Verif.Misc.Glob
import Verif.Misc.Install
import Verif.Make.Returns
import Mathlib.Tactic.Tauto

set_option autoImplicit false

namespace Licant.Misc.Headers
open Licant.Py Licant.Py.Path Licant.Core Licant.Make Licant.Make.Fs Licant.Misc.Glob Licant.Misc.Install Licant.Cxx

/-! ### model -/

/-- CPython `posixpath.abspath` (used in install.py:91-93); `cw` is `os.getcwd()` -/
def abspath (cw p : Str) : Str := normpath (if isabs p = true then p else join cw p)

/-- CPython, in `posixpath.relpath`: `[x for x in p.split('/') if x]` -/
def parts (p : Str) : List Str := (comps p).filter fun c => !c.isEmpty

/-- CPython, in `posixpath.relpath`: the length of `posixpath.commonprefix` of two lists -/
def commonLen : List Str → List Str → Nat
  | a :: l, b :: r => if a = b then commonLen l r + 1 else 0
  | _, _ => 0

/-- CPython `posixpath.relpath` (used in install.py:104) -/
def relpath (cw path start : Str) : Str :=
  let sl := parts (abspath cw start)
  let pl := parts (abspath cw path)
  let i := commonLen sl pl
  match List.replicate (sl.length - i) ['.', '.'] ++ pl.drop i with
  | [] => ['.']
  | c :: cs => cs.foldl join c

/-- install.py:90-107 `install_headers`: the world, the name of the set and the list of installed files (`copy` returns
the path with `~` replaced, make.py:257).  `os.getcwd()` is the path of the place `cwd`, which has no links. -/
def installHeaders {T : Tree} {cwd : List Str} (V : View T cwd) (E : Env) (lim : Nat) (D : Dirs) (w : World)
    (tgtdir srcdir : Str) (patterns : List Str) (adddeps : List String) : Except Err (World × String × List String) :=
  let srcdir := abspath (absPath cwd) srcdir
  match patterns.mapM fun p => recursiveGlob V lim (abspath (absPath cwd) srcdir) p with
  | none => .error .recursion
  | some lsts =>
    let headers := lsts.flatten
    let dest := fun h => String.ofList (join (join D.headers tgtdir) (relpath (absPath cwd) h srcdir))
    match headers.foldlM (fun d h => sourceG E lim d (String.ofList h) []) w.dflt with
    | .error e => .error e
    | .ok d =>
      match headers.foldlM (fun w h => copyG E lim w (dest h) (String.ofList h) adddeps false) { w with dflt := d } with
      | .error e => .error e
      | .ok w =>
        let targets := headers.map fun h => E.home (dest h)
        let full := "headers://" ++ String.ofList srcdir
        match filesetG E lim w full targets [] false with
        | .error e => .error e
        | .ok w => .ok (w, full, targets)

/-! ### specification -/

/-- a header: a file below the place `q`, reached through the directories `ds`, whose name matches a pattern -/
def Header (T : Tree) (q : List Str) (patterns ds : List Str) (f : Str) : Prop :=
  FileIn T q ds f ∧ ∃ p ∈ patterns, Matches p f

/-- the path of the place -/
def pathOf (q : List Str) : String := String.ofList (absPath q)

/-! ### paths -/

theorem reduced_normpath {p : Str} (h : isabs p = true) : reduced (normpath p) = reduced p ∧ isabs (normpath p) = true ∧
    normpath (normpath p) = normpath p ∧ parts (normpath p) = reduced p := by
  have hn := reduced_normal p
  have hk := initialSlashes_le p
  rcases normpath_eq p with ⟨_, h2, _⟩ | ⟨h1, _⟩
  · rw [h] at h2; cases h2
  · have hi := (comps_normpath p).1
    rw [h] at hi
    have hn' : Normal (decide (initialSlashes p ≠ 0)) (reduced p) := by rw [← isabs_iff]; exact hn
    have hr : reduced (normpath p) = reduced p := by rw [h1]; exact reduced_render hk hn'
    refine ⟨hr, hi, ?_, ?_⟩
    · rcases normpath_eq (normpath p) with ⟨_, h4, _⟩ | ⟨h4, _⟩
      · rw [hi] at h4; cases h4
      · rw [h4, hr, h1, initialSlashes_render hk hn.mem]
    · unfold parts
      rw [h1, comps_render hn.mem, List.filter_append]
      have h5 : (List.replicate (initialSlashes p) ([] : Str)).filter (fun c => !c.isEmpty) = [] := by
        rw [List.filter_eq_nil_iff]
        intro c hc
        rw [(List.mem_replicate.1 hc).2]; simp
      rw [h5]
      split
      · rename_i he; rw [he]; rfl
      · rw [List.nil_append, List.filter_eq_self]
        intro c hc
        have := (hn.mem c hc).1
        cases c with
        | nil => exact absurd rfl this
        | cons x c => rfl

theorem abspath_abs {cwd : List Str} (p : Str) : isabs (abspath (absPath cwd) p) = true ∧
    normpath (abspath (absPath cwd) p) = abspath (absPath cwd) p ∧
    abspath (absPath cwd) (abspath (absPath cwd) p) = abspath (absPath cwd) p := by
  have h : isabs (if isabs p = true then p else join (absPath cwd) p) = true := by
    split
    · assumption
    · rename_i hn
      unfold join
      rw [if_neg (by simpa [isabs] using hn)]
      split <;> simp [absPath, isabs]
  have h1 : isabs (abspath (absPath cwd) p) = true := (reduced_normpath h).2.1
  have h2 : normpath (abspath (absPath cwd) p) = abspath (absPath cwd) p := (reduced_normpath h).2.2.1
  refine ⟨h1, h2, ?_⟩
  rw [abspath, if_pos h1, h2]

theorem commonLen_append (a b : List Str) : commonLen a (a ++ b) = a.length := by
  induction a with
  | nil => simp [commonLen]
  | cons c a ih => simp [commonLen, ih]

theorem join_intercalate {l : List Str} {c : Str} (hl : l ≠ []) (h : ∀ x ∈ l, Plain x) (hc : Plain c) :
    join (['/'].intercalate l) c = ['/'].intercalate (l ++ [c]) := by
  obtain ⟨h1, h2⟩ := intercalate_end hl fun x hx => ⟨(h x hx).ne, (h x hx).noslash⟩
  rw [intercalate_snoc, if_neg hl]
  unfold join
  rw [if_neg (plain_head hc), if_neg (by rw [not_or]; exact ⟨h1, h2⟩)]

theorem foldl_join_intercalate : ∀ (cs l : List Str), l ≠ [] → (∀ x ∈ l, Plain x) → (∀ x ∈ cs, Plain x) →
    cs.foldl join (['/'].intercalate l) = ['/'].intercalate (l ++ cs) := by
  intro cs
  induction cs with
  | nil => intro l _ _ _; simp
  | cons c cs ih =>
    intro l hl h hcs
    have hc := hcs c (by simp)
    rw [List.foldl_cons, join_intercalate hl h hc, ih (l ++ [c]) (by simp) (by
      intro x hx
      rcases List.mem_append.1 hx with hx | hx
      · exact h x hx
      · rw [List.mem_singleton] at hx; rw [hx]; exact hc) (fun x hx => hcs x (by simp [hx]))]
    simp

theorem isabs_join {p c : Str} (hp : isabs p = true) (hc : Plain c) : isabs (join p c) = true := by
  unfold join
  rw [if_neg (plain_head hc)]
  cases p with
  | nil => cases hp
  | cons x p => unfold isabs at hp ⊢; split <;> simpa using hp

theorem isabs_below {l : List Str} {p : Str} (hp : isabs p = true) (hl : ∀ x ∈ l, Plain x) : isabs (Glob.below p l) = true := by
  induction l generalizing p with
  | nil => exact hp
  | cons c l ih => exact ih (isabs_join hp (hl c (by simp))) fun x hx => hl x (by simp [hx])

/-- the relative path from a directory to a file below it -/
theorem relpath_below {cw a : Str} (ha : isabs a = true) (hn : normpath a = a) {l : List Str} (hl : l ≠ [])
    (hp : ∀ x ∈ l, Plain x) : relpath cw (Glob.below a l) a = ['/'].intercalate l := by
  have ha0 : a ≠ [] := by rintro rfl; cases ha
  have hb := isabs_below ha hp
  unfold relpath abspath
  rw [if_pos ha, if_pos hb, (reduced_normpath ha).2.2.2, (reduced_normpath hb).2.2.2, below_reduced ha0 hp]
  simp only [commonLen_append, Nat.sub_self, List.replicate_zero, List.nil_append, List.drop_left']
  obtain ⟨c, cs, rfl⟩ := List.exists_cons_of_ne_nil hl
  have := foldl_join_intercalate cs [c] (by simp) (by simpa using hp c (by simp)) fun x hx => hp x (by simp [hx])
  simpa [List.intercalate] using this

theorem join_absPath {B l : List Str} (hB : ∀ x ∈ B, Plain x) (hl : l ≠ []) (hp : ∀ x ∈ l, Plain x) :
    join (absPath B) (['/'].intercalate l) = absPath (B ++ l) := by
  have hm : ∀ c ∈ l, c ≠ [] ∧ '/' ∉ c := fun c hc => ⟨(hp c hc).ne, (hp c hc).noslash⟩
  obtain ⟨x, r, he, hx⟩ := render_head hm hl
  unfold join
  rw [if_neg (by rw [he]; simpa using hx)]
  by_cases hB0 : B = []
  · subst hB0
    rw [if_pos (by simp [absPath])]
    simp [absPath]
  · obtain ⟨h1, h2⟩ := intercalate_end hB0 fun x hx => ⟨(hB x hx).ne, (hB x hx).noslash⟩
    have hi : ∀ (B : List Str), B ≠ [] → ['/'].intercalate (B ++ l) = ['/'].intercalate B ++ '/' :: ['/'].intercalate l := by
      intro B hB
      induction B with
      | nil => exact absurd rfl hB
      | cons b B ih =>
        by_cases h0 : B = []
        · subst h0
          obtain ⟨c, cs, rfl⟩ := List.exists_cons_of_ne_nil hl
          simp [List.intercalate]
        · obtain ⟨b', B', rfl⟩ := List.exists_cons_of_ne_nil h0
          have := ih (by simp)
          simp only [List.intercalate, List.cons_append, List.intersperse_cons_cons, List.flatten_cons] at this ⊢
          rw [this]
          simp
    unfold absPath
    rw [if_neg, hi B hB0]
    · simp
    · rw [not_or]
      refine ⟨by simp, ?_⟩
      obtain ⟨y, s, hy⟩ := List.exists_cons_of_ne_nil h1
      rw [hy] at h2 ⊢
      rw [List.getLast?_cons_cons]
      exact h2

/-! ### one copy -/

section
variable {E : Env} {lim : Nat}

/-- nothing above an existing file is missing -/
theorem no_missingDir (hE : E.Sane) {h q : String} (hx : E.ex h = true) : ¬ MissingDir E (E.canon h) q := by
  rintro ⟨i, hi, _⟩
  have h0 : E.ex (anc (E.canon h) 0) = true := hE.exParent h hx
  have := missing_anc hE hi 0 (Nat.zero_le _)
  rw [h0] at this
  cases this

theorem missingDir_ex (hE : E.Sane) {t q : String} (h : MissingDir E t q) : E.ex q = false := by
  obtain ⟨i, hi, rfl⟩ := h
  rw [hE.exCanonAnc]
  exact hi

/-- what the copy of a file is registered as: `dest` names a target for that file which depends on the file `src` and on
`adddeps`, and `src` is registered -/
structure Copied (E : Env) (adddeps : List String) (c : MReg) (dest src : String) : Prop where
  target : ∃ o, Resolves E.canon c.reg dest o ∧ o < c.reg.next ∧ c.kind o = .file ∧ (c.reg.obj o).tgt = dest ∧
    ∀ a ∈ src :: adddeps, '*' ∉ a.toList → a ∈ (c.reg.obj o).deps
  source : ∃ o, Resolves E.canon c.reg src o

theorem copy_step (hE : E.Sane) {w w' : World} {dest src : String} {adddeps : List String} (hh : E.home src = src)
    (hhd : E.home dest = dest) (hc : E.canon dest = dest) (hs : NoStar E src) (hsd : NoStar E dest)
    (hx : E.ex src = true) (hne : E.canon src ≠ dest) (h : copyG E lim w dest src adddeps false = .ok w') :
    Copied E adddeps w'.dflt dest src ∧
    ∀ dest' src', E.canon dest' = dest' → dest' ≠ dest → ¬ MissingDir E dest dest' → E.ex src' = true → E.canon src' ≠ dest →
      Copied E adddeps w.dflt dest' src' → Copied E adddeps w'.dflt dest' src' := by
  unfold copyG at h
  simp only [hh, hhd] at h
  split at h
  · cases h
  rename_i d1 h1
  obtain ⟨hk1, o1, ho1⟩ := sourceG_keeps hE hs (no_missingDir hE hx) h1
  unfold makefileG at h
  split at h
  · cases h
  rename_i d2 t ds h2
  simp only [World.addTo, Bool.false_eq_true, if_false, Except.ok.injEq] at h
  subst h
  obtain ⟨rfl, rfl, hk2⟩ := fileInit_keeps hE _ _ _ _ _ _ _ _ hsd h2
  rw [hc] at hk2
  have hk3 := keeps_add d2 (ob := makeObj (E.canon dest) (globs E (src :: adddeps) ++ dirDep E true (E.canon dest))) .file
    (by exact hE.idem dest)
  have hmem : ∀ a ∈ src :: adddeps, '*' ∉ a.toList → a ∈ globs E (src :: adddeps) ++ dirDep E true (E.canon dest) := by
    intro a ha hs
    refine List.mem_append.2 (Or.inl (List.mem_flatMap.2 ⟨a, ha, ?_⟩))
    rw [if_neg hs]
    exact List.mem_singleton.2 rfl
  rw [hc] at hk3 hmem ⊢
  have keepSrc : ∀ s o, E.ex s = true → E.canon s ≠ dest → Resolves E.canon d1.reg s o →
      Resolves E.canon (d2.add (makeObj dest (globs E (src :: adddeps) ++ dirDep E true dest)) .file).reg s o := by
    intro s o hxs hns hr
    refine hk3.keep s o (hk2.keep s o hr ?_) hns
    intro hm
    have := missingDir_ex hE hm
    rw [hE.exCanon s hxs] at this
    cases this
  constructor
  · refine ⟨⟨d2.reg.next, add_self, ?_, ?_, ?_, ?_⟩, o1, keepSrc src o1 hx hne ho1⟩
    · simp [MReg.add, Core.add]
    · simp [MReg.add]
    · simp [MReg.add, Core.add, makeObj]
    · intro a ha hs
      have := hmem a ha hs
      simpa [MReg.add, Core.add, makeObj] using this
  · rintro dest' src' hc' hne' hm hx' hns ⟨⟨o, h3, h4, h5, h6, h7⟩, o', h8⟩
    have hno : ∀ q, ¬ MissingDir E (E.canon src) q := fun q => no_missingDir hE hx
    have h9 := hk1.obj o h4
    have h10 := hk2.obj o (lt_of_lt_of_le h4 hk1.next)
    have h11 := hk3.obj o (lt_of_lt_of_le h4 (le_trans hk1.next hk2.next))
    refine ⟨⟨o, ?_, ?_, ?_, ?_, ?_⟩, o', keepSrc src' o' hx' hns (hk1.keep _ _ h8 (hno _))⟩
    · exact hk3.keep _ _ (hk2.keep _ _ (hk1.keep _ _ h3 (hno _)) (by rw [hc']; exact hm)) (by rw [hc']; exact hne')
    · exact lt_of_lt_of_le h4 (le_trans hk1.next (le_trans hk2.next hk3.next))
    · rw [h11.2, h10.2, h9.2]; exact h5
    · rw [h11.1, h10.1, h9.1]; exact h6
    · rw [h11.1, h10.1, h9.1]; exact h7

/-- a header and where it goes -/
structure Fine (E : Env) (dest src : String) : Prop where
  home : E.home src = src
  homeD : E.home dest = dest
  canon : E.canon dest = dest
  nostar : NoStar E src
  nostarD : NoStar E dest
  ex : E.ex src = true

theorem copies (hE : E.Sane) {adddeps : List String} (dest src : Str → String) : ∀ (hs : List Str) (w w' : World),
    (∀ h ∈ hs, Fine E (dest h) (src h)) → (∀ h ∈ hs, ∀ h' ∈ hs, E.canon (src h) ≠ dest h') →
    (∀ h ∈ hs, ∀ h' ∈ hs, ¬ MissingDir E (dest h) (dest h')) →
    (∀ h ∈ hs, ∀ h' ∈ hs, dest h = dest h' → h = h') →
    hs.foldlM (fun w h => copyG E lim w (dest h) (src h) adddeps false) w = .ok w' →
    (∀ h ∈ hs, Copied E adddeps w'.dflt (dest h) (src h)) ∧
    ∀ d s, Fine E d s → (∀ h ∈ hs, d ≠ dest h ∧ ¬ MissingDir E (dest h) d ∧ E.canon s ≠ dest h) →
      Copied E adddeps w.dflt d s → Copied E adddeps w'.dflt d s := by
  intro hs
  induction hs with
  | nil => intro w w' _ _ _ _ h; cases h; exact ⟨by simp, fun _ _ _ _ h => h⟩
  | cons h hs ih =>
    intro w w' hfine hsep hmiss hinj hf
    simp only [List.foldlM_cons, bind, Except.bind] at hf
    split at hf
    · cases hf
    rename_i w1 h1
    have hh := hfine h (by simp)
    obtain ⟨hnew, hold⟩ := copy_step hE hh.home hh.homeD hh.canon hh.nostar hh.nostarD hh.ex
      (hsep h (by simp) h (by simp)) h1
    obtain ⟨ih1, ih2⟩ := ih w1 w' (fun x hx => hfine x (by simp [hx])) (fun x hx y hy => hsep x (by simp [hx]) y (by simp [hy]))
      (fun x hx y hy => hmiss x (by simp [hx]) y (by simp [hy])) (fun x hx y hy => hinj x (by simp [hx]) y (by simp [hy])) hf
    constructor
    · intro x hx
      by_cases hxs : x ∈ hs
      · exact ih1 x hxs
      · have hx : x = h := by simpa [hxs] using hx
        subst hx
        refine ih2 _ _ hh (fun y hy => ⟨?_, hmiss y (by simp [hy]) x (by simp), hsep x (by simp) y (by simp [hy])⟩) hnew
        intro e
        exact hxs (hinj x (by simp) y (by simp [hy]) e ▸ hy)
    · intro d s hds hcond hcop
      refine ih2 d s hds (fun x hx => hcond x (by simp [hx])) ?_
      obtain ⟨h2, h3, h4⟩ := hcond h (by simp)
      exact hold d s hds.canon h2 h3 hds.ex h4 hcop

end

/-! ### places -/

section
variable {T : Tree} {cwd : List Str} {E : Env}

theorem start_below {p : Str} (hp : p ≠ []) {ds : List Str} (hd : ∀ d ∈ ds, Plain d) :
    start cwd (Glob.below p ds) = start cwd p := by
  induction ds generalizing p with
  | nil => rfl
  | cons c ds ih =>
    have hc := hd c (by simp)
    exact (ih (join_ne hc) fun d h => hd d (by simp [h])).trans (start_join hp hc)

theorem walk_below {p : Str} {q d : List Str} (hp : p ≠ []) {ds : List Str} (hw : Walk T d (comps p) q)
    (hg : T.get (q ++ ds) = some .dir) : Walk T d (comps (Glob.below p ds)) (q ++ ds) := by
  induction ds generalizing p q with
  | nil => simpa [Glob.below] using hw
  | cons c ds ih =>
    have hc : T.get (q ++ [c]) = some .dir := by
      by_cases h0 : ds = []
      · subst h0; exact hg
      · exact get_prefix (q ++ [c]) ds h0 (by rw [List.append_assoc]; exact (by rw [List.singleton_append, hg]; simp))
    have hpc : Plain c := T.names _ _ (by rw [hc]; simp)
    have := ih (p := join p c) (q := q ++ [c]) (join_ne hpc) (walk_join hp hpc hw (Or.inl hc)) (by simpa using hg)
    simpa [Glob.below] using this

/-- the files found exist -/
theorem ex_below (hr : Realises T cwd E) (hT : NoDangling T) {A : Str} {q ds : List Str} {f : Str} (ho : Opens T cwd A q)
    (hf : FileIn T q ds f) : E.ex (String.ofList (Glob.below A (ds ++ [f]))) = true := by
  rw [hr.ex]
  have hpl := hf.plain
  have hds : T.get (q ++ ds) = some .dir := T.parents _ _ hf.there
  have hpf := hpl f (by simp)
  have hpds : ∀ d ∈ ds, Plain d := fun d h => hpl d (by simp [h])
  have hstep : ∃ m, Walk T (q ++ ds) [f] m := by
    cases hn : T.get (q ++ ds ++ [f]) with
    | none => exact absurd hn hf.there
    | some n =>
      cases n with
      | file => exact ⟨_, .step (Or.inl hn) .done⟩
      | dir => exact ⟨_, .step (Or.inr hn) .done⟩
      | link t => obtain ⟨m, hm⟩ := hT _ _ _ hn; exact ⟨m, .link hn hm .done⟩
  obtain ⟨m, hm⟩ := hstep
  refine ⟨ofList_ne (below_ne ho.1 hpl), m, ?_⟩
  rw [String.toList_ofList, start_below ho.1 hpl, ← below_snoc]
  exact walk_joinG (below_ne ho.1 hpds) hpf (walk_below ho.1 ho.2.1 hds) hm

theorem anc_pathOf : ∀ (i : Nat) {q : List Str}, (∀ c ∈ q, Plain c) → q ≠ [] →
    ∃ a b, q = a ++ b ∧ b ≠ [] ∧ anc (pathOf q) i = pathOf a := by
  intro i
  induction i with
  | zero =>
    intro q hq hne
    rcases List.eq_nil_or_concat q with rfl | ⟨a, c, rfl⟩
    · exact absurd rfl hne
    · rw [List.concat_eq_append] at *
      exact ⟨a, [c], rfl, by simp, anc_absString a [c] hq (by simp)⟩
  | succ i ih =>
    intro q hq hne
    obtain ⟨a, b, rfl, hb, h⟩ := ih hq hne
    rcases List.eq_nil_or_concat a with rfl | ⟨a', c, rfl⟩
    · refine ⟨[], b, rfl, hb, ?_⟩
      rw [← parent_anc, h]
      decide +kernel
    · rw [List.concat_eq_append] at *
      refine ⟨a', [c] ++ b, by simp, by simp, ?_⟩
      rw [← parent_anc, h, ← anc_zero]
      exact anc_absString a' [c] (fun x hx => hq x (List.mem_append.2 (Or.inl hx))) (by simp)

theorem Solid.left {a b : List Str} (h : Solid T (a ++ b)) : Solid T a :=
  ⟨fun c hc => h.plain c (by simp [hc]), fun x y t e => h.nolink x (y ++ b) t (by rw [e, List.append_assoc])⟩

/-- the directories missing above a place to which no link leads -/
theorem missingDir_pathOf (hr : Realises T cwd E) {q : List Str} (hq : Solid T q) (hne : q ≠ []) {p : String}
    (h : MissingDir E (pathOf q) p) : ∃ a b, q = a ++ b ∧ b ≠ [] ∧ p = pathOf a := by
  obtain ⟨i, _, rfl⟩ := h
  obtain ⟨a, b, rfl, hb, e⟩ := anc_pathOf i hq.plain hne
  exact ⟨a, b, rfl, hb, by rw [e]; exact hr.canon_abs (Solid.left hq)⟩

theorem mem_intercalate' {cs : List Str} {c : Str} {x : Char} (hc : c ∈ cs) (hx : x ∈ c) : x ∈ ['/'].intercalate cs := by
  induction cs with
  | nil => cases hc
  | cons b cs ih =>
    cases cs with
    | nil => simpa [List.intercalate, List.mem_singleton.1 hc] using List.mem_singleton.1 hc ▸ hx
    | cons b' cs =>
      simp only [List.intercalate, List.intersperse_cons_cons, List.flatten_cons, List.mem_append] at ih ⊢
      rcases List.mem_cons.1 hc with rfl | hc
      · exact Or.inl hx
      · exact Or.inr (Or.inr (ih hc))

theorem nostar_pathOf {a b : List Str} (h : '*' ∉ (pathOf (a ++ b)).toList) : '*' ∉ (pathOf a).toList := by
  intro hm
  apply h
  simp only [pathOf, absPath, String.toList_ofList, List.mem_cons] at hm ⊢
  refine Or.inr ?_
  rcases hm with hm | hm
  · cases hm
  · rcases mem_intercalate hm with hm | ⟨c, hc, hm⟩
    · cases hm
    · exact mem_intercalate' (List.mem_append.2 (Or.inl hc)) hm

end

/-! ### C107 -/

section
variable {T : Tree} {cwd : List Str} {E : Env}

theorem add_other {canon : String → String} {c : MReg} {ob : Obj} {k : Kind} {n : String} {o : Nat} (h1 : n ≠ ob.tgt)
    (h2 : canon n ≠ ob.tgt) (h : Resolves canon c.reg n o) : Resolves canon (c.add ob k).reg n o := by
  simp only [Resolves, MReg.add, Core.add] at h ⊢
  rwa [Dict.get_set_ne _ _ (Ne.symm h1), Dict.get_set_ne _ _ (Ne.symm h2)]

/-- **C107**.  `install_headers(tgtdir, srcdir, patterns, adddeps)` with `srcdir` leading to the directory `q`: for every file
below `q` whose name matches a pattern, say `f` in `ds`, there is a target for the file `f` in `ds` below the directory for
headers, made from that file; these are all the files of the returned set, and different headers go to different files.  It is
supposed that there is no link in the path to which a header goes, that no path has a star in it, and that no header is (or is
linked to) one of the files to be made. -/
theorem C107_headers (V : View T cwd) {lim : Nat} {D : Dirs} {w w' : World} {tgtdir srcdir : Str} {patterns : List Str}
    {adddeps targets : List String} {full : String} {B q : List Str}
    (hr : Realises T cwd E) (hT : NoDangling T) (hcwd : T.get cwd = some .dir)
    (hh : ∀ p : Str, isabs p = true → E.home (String.ofList p) = String.ofList p)
    (ho : Opens T cwd (abspath (absPath cwd) srcdir) q)
    (hB : join D.headers tgtdir = absPath B)
    (hsolid : ∀ ds f, Header T q patterns ds f → Solid T (B ++ ds ++ [f]))
    (hstar : ∀ ds f, Header T q patterns ds f → '*' ∉ (pathOf (B ++ ds ++ [f])).toList ∧
      '*' ∉ (E.canon (String.ofList (Glob.below (abspath (absPath cwd) srcdir) (ds ++ [f])))).toList)
    (hsep : ∀ ds f ds' f', Header T q patterns ds f → Header T q patterns ds' f' →
      E.canon (String.ofList (Glob.below (abspath (absPath cwd) srcdir) (ds ++ [f]))) ≠ pathOf (B ++ ds' ++ [f']))
    (h : installHeaders V E lim D w tgtdir srcdir patterns adddeps = .ok (w', full, targets)) :
    (∀ t, t ∈ targets ↔ ∃ ds f, Header T q patterns ds f ∧ t = pathOf (B ++ ds ++ [f])) ∧
    (∀ ds f, Header T q patterns ds f →
      Copied E adddeps w'.dflt (pathOf (B ++ ds ++ [f])) (String.ofList (Glob.below (abspath (absPath cwd) srcdir) (ds ++ [f])))) ∧
    (∃ o, w'.dflt.reg.targets.get full = some o ∧ w'.dflt.kind o = .fileset ∧ (w'.dflt.reg.obj o).deps = targets) ∧
    ∀ ds f ds' f', Header T q patterns ds f → Header T q patterns ds' f' →
      pathOf (B ++ ds ++ [f]) = pathOf (B ++ ds' ++ [f']) → ds = ds' ∧ f = f' := by
  have hE := hr.sane hT hcwd
  obtain ⟨hAabs, hAnorm, hAA⟩ := abspath_abs (cwd := cwd) srcdir
  generalize hA : abspath (absPath cwd) srcdir = A at *
  have hinj : ∀ ds f ds' f', Header T q patterns ds f → Header T q patterns ds' f' →
      pathOf (B ++ ds ++ [f]) = pathOf (B ++ ds' ++ [f']) → ds = ds' ∧ f = f' := by
    intro ds f ds' f' h1 h2 e
    have := absPath_inj (hsolid ds f h1).plain (hsolid ds' f' h2).plain (ofList_inj e)
    rw [List.append_assoc, List.append_assoc] at this
    have := List.append_cancel_left this
    exact ⟨List.append_inj_left' this rfl, by simpa using List.append_inj_right' this rfl⟩
  unfold installHeaders at h
  simp only [hA, hAA] at h
  split at h
  · cases h
  rename_i lsts hl
  have hfa := forall₂_mem (mapM_some hl)
  generalize hhs : lsts.flatten = hs at h
  have hmem : ∀ x, x ∈ hs ↔ ∃ ds f, Header T q patterns ds f ∧ x = Glob.below A (ds ++ [f]) := by
    intro x
    rw [← hhs, List.mem_flatten]
    constructor
    · rintro ⟨l, hl, hx⟩
      obtain ⟨p, hp, hg⟩ := hfa.1 l hl
      obtain ⟨ds, f, h1, h2, h3⟩ := (((C105_exact V hg).1 q ho).1 x).1 hx
      exact ⟨ds, f, ⟨h1, p, hp, h2⟩, h3⟩
    · rintro ⟨ds, f, ⟨h1, p, hp, h2⟩, h3⟩
      obtain ⟨l, hl, hg⟩ := hfa.2 p hp
      exact ⟨l, hl, (((C105_exact V hg).1 q ho).1 x).2 ⟨ds, f, h1, h2, h3⟩⟩
  have hdest : ∀ ds f, Header T q patterns ds f →
      String.ofList (join (join D.headers tgtdir) (relpath (absPath cwd) (Glob.below A (ds ++ [f])) A)) =
        pathOf (B ++ ds ++ [f]) := by
    intro ds f hf
    rw [hB, relpath_below hAabs hAnorm (by simp) hf.1.plain, join_absPath
      (fun x hx => (hsolid ds f hf).plain x (by simp [hx])) (by simp) hf.1.plain, List.append_assoc]
    rfl
  obtain ⟨dest, hdd⟩ : ∃ dest : Str → String, ∀ h, String.ofList (join (join D.headers tgtdir) (relpath (absPath cwd) h A)) =
    dest h := ⟨_, fun _ => rfl⟩
  simp only [hdd] at h
  have hdest' : ∀ ds f, Header T q patterns ds f → dest (Glob.below A (ds ++ [f])) = pathOf (B ++ ds ++ [f]) := by
    intro ds f hf
    rw [← hdd]
    exact hdest ds f hf
  have habs : ∀ ds f, isabs (absPath (B ++ ds ++ [f])) = true := fun ds f => by simp [absPath, isabs]
  have hhome : ∀ ds f, E.home (pathOf (B ++ ds ++ [f])) = pathOf (B ++ ds ++ [f]) := fun ds f => hh _ (habs ds f)
  split at h
  · cases h
  rename_i d hd
  split at h
  · cases h
  rename_i w1 hw1
  split at h
  · cases h
  rename_i w2 hw2
  simp only [Except.ok.injEq, Prod.mk.injEq] at h
  obtain ⟨rfl, rfl, rfl⟩ := h
  have htargets : ∀ t, t ∈ hs.map (fun h => E.home (dest h)) ↔
      ∃ ds f, Header T q patterns ds f ∧ t = pathOf (B ++ ds ++ [f]) := by
    intro t
    rw [List.mem_map]
    constructor
    · rintro ⟨x, hx, rfl⟩
      obtain ⟨ds, f, hf, rfl⟩ := (hmem x).1 hx
      exact ⟨ds, f, hf, by rw [hdest' ds f hf, hhome]⟩
    · rintro ⟨ds, f, hf, rfl⟩
      exact ⟨_, (hmem _).2 ⟨ds, f, hf, rfl⟩, by rw [hdest' ds f hf, hhome]⟩
  obtain ⟨hcop, -⟩ := copies hE dest String.ofList hs _ _ (by
      intro x hx
      obtain ⟨ds, f, hf, rfl⟩ := (hmem x).1 hx
      obtain ⟨s1, s3⟩ := hstar ds f hf
      have hex := ex_below hr hT ho hf.1
      rw [hdest' ds f hf]
      have hc : E.canon (pathOf (B ++ ds ++ [f])) = pathOf (B ++ ds ++ [f]) := hr.canon_abs (hsolid ds f hf)
      refine ⟨hh _ (isabs_below hAabs hf.1.plain), hhome ds f, hc, ⟨s3, fun p hp => (no_missingDir hE hex hp).elim⟩,
        ⟨by rwa [hc], fun p hp => ?_⟩, hex⟩
      rw [hc] at hp
      obtain ⟨a, b, e, _, rfl⟩ := missingDir_pathOf hr (hsolid ds f hf) (by simp) hp
      rw [e] at s1
      exact nostar_pathOf s1) (by
      intro x hx y hy
      obtain ⟨ds, f, hf, rfl⟩ := (hmem x).1 hx
      obtain ⟨ds', f', hf', rfl⟩ := (hmem y).1 hy
      rw [hdest' ds' f' hf']
      exact hsep ds f ds' f' hf hf') (by
      intro x hx y hy
      obtain ⟨ds, f, hf, rfl⟩ := (hmem x).1 hx
      obtain ⟨ds', f', hf', rfl⟩ := (hmem y).1 hy
      rw [hdest' ds' f' hf', hdest' ds f hf]
      intro hm
      obtain ⟨a, b, e, hb, e'⟩ := missingDir_pathOf hr (hsolid ds f hf) (by simp) hm
      have e'' := absPath_inj (hsolid ds' f' hf').plain (fun c hc => (hsolid ds f hf).plain c (by rw [e]; simp [hc])) (ofList_inj e')
      rw [← e'', List.append_assoc, List.append_assoc, List.append_assoc] at e
      have e := List.append_cancel_left e
      refine hf'.1.nodir (get_prefix _ b hb ?_)
      have := hf.1.there
      rw [List.append_assoc, e] at this
      simpa using this) (by
      intro x hx y hy e
      obtain ⟨ds, f, hf, rfl⟩ := (hmem x).1 hx
      obtain ⟨ds', f', hf', rfl⟩ := (hmem y).1 hy
      rw [hdest' ds' f' hf', hdest' ds f hf] at e
      obtain ⟨rfl, rfl⟩ := hinj _ _ _ _ hf hf' e
      rfl) hw1
  unfold filesetG at hw2
  have hg : globs E ([] ++ hs.map (fun h => E.home (dest h))) = hs.map (fun h => E.home (dest h)) := by
    rw [List.nil_append]
    apply globs_id
    intro t ht
    obtain ⟨ds, f, hf, rfl⟩ := (htargets t).1 ht
    exact (hstar ds f hf).1
  rw [hg] at hw2
  simp only at hw2
  split at hw2
  · cases hw2
  rename_i d3 hd3
  simp only [World.addTo, Bool.false_eq_true, if_false, Except.ok.injEq] at hw2
  subst hw2
  have hk := keeps_sources hE _ _ _ (fun _ _ => True) (fun _ _ _ => trivial) hd3
  refine ⟨htargets, ?_, ⟨d3.reg.next, by simp [MReg.add, Core.add, makeObj], by simp [MReg.add], by simp [MReg.add, Core.add, makeObj]⟩,
    hinj⟩
  intro ds f hf
  obtain ⟨⟨o, h1, h2, h3, h4, h5⟩, o', h6⟩ := hcop _ ((hmem _).2 ⟨ds, f, hf, rfl⟩)
  rw [hdest' ds f hf] at h1 h4
  have hslash : ∀ (p : Str), isabs p = true → String.ofList p ≠ "headers://" ++ String.ofList A := by
    intro p hp e
    have := congrArg String.toList e
    rw [String.toList_append, String.toList_ofList] at this
    rw [this] at hp
    cases hp
  have hob : ∀ x, x < d3.reg.next → ((d3.add (makeObj ("headers://" ++ String.ofList A) (hs.map fun h => E.home (dest h)))
      .fileset).reg.obj x = d3.reg.obj x ∧ (d3.add (makeObj ("headers://" ++ String.ofList A) (hs.map fun h => E.home (dest h)))
      .fileset).kind x = d3.kind x) := by
    intro x hx
    have : x ≠ d3.reg.next := by omega
    simp [MReg.add, Core.add, this]
  have hlt : o < d3.reg.next := lt_of_lt_of_le h2 hk.next
  refine ⟨⟨o, ?_, ?_, ?_, ?_, ?_⟩, o', ?_⟩
  · refine add_other (hslash _ (habs ds f)) ?_ (hk.keep _ _ h1 fun h => h)
    rw [show E.canon (pathOf (B ++ ds ++ [f])) = pathOf (B ++ ds ++ [f]) from hr.canon_abs (hsolid ds f hf)]
    exact hslash _ (habs ds f)
  · show o < d3.reg.next + 1
    omega
  · rw [(hob o hlt).2, (hk.obj o h2).2]; exact h3
  · rw [(hob o hlt).1, (hk.obj o h2).1]; exact h4
  · rw [(hob o hlt).1, (hk.obj o h2).1]; exact h5
  · refine add_other (hslash _ (isabs_below hAabs hf.1.plain)) ?_ (hk.keep _ _ h6 fun h => h)
    obtain ⟨m, _, e⟩ := hr.real hT (String.ofList (Glob.below A (ds ++ [f])))
    rw [e]
    exact hslash _ (by simp [absPath, isabs])

theorem foldlM_returns {α β ε : Type} {f : β → α → Except ε β} {l : List α} (h : ∀ a ∈ l, ∀ b, ∃ b', f b a = .ok b') :
    ∀ b, ∃ b', l.foldlM f b = .ok b' := by
  induction l with
  | nil => intro b; exact ⟨b, rfl⟩
  | cons a l ih =>
    intro b
    obtain ⟨b1, h1⟩ := h a (by simp) b
    simp only [List.foldlM_cons, bind, Except.bind, h1]
    exact ih (fun x hx => h x (by simp [hx])) b1

/-- C107: the call returns, if neither the tree is deeper nor the paths are longer than the recursion limit allows. -/
theorem C107_returns (V : View T cwd) {lim N : Nat} {D : Dirs} (w : World) {tgtdir srcdir : Str} {patterns : List Str}
    (adddeps : List String) {B q : List Str}
    (hr : Realises T cwd E) (hT : NoDangling T) (hcwd : T.get cwd = some .dir)
    (hh : ∀ p : Str, isabs p = true → E.home (String.ofList p) = String.ofList p)
    (ho : Opens T cwd (abspath (absPath cwd) srcdir) q)
    (hB : join D.headers tgtdir = absPath B) (hBp : ∀ c ∈ B, Plain c)
    (hN : ∀ q, T.get q ≠ none → q.length ≤ N) (hl : N < lim)
    (hshort : ∀ ds f, Header T q patterns ds f → Short E lim (pathOf (B ++ ds ++ [f])) ∧
      Short E lim (String.ofList (Glob.below (abspath (absPath cwd) srcdir) (ds ++ [f])))) :
    ∃ r, installHeaders V E lim D w tgtdir srcdir patterns adddeps = .ok r := by
  have hE := hr.sane hT hcwd
  obtain ⟨hAabs, hAnorm, hAA⟩ := abspath_abs (cwd := cwd) srcdir
  generalize hA : abspath (absPath cwd) srcdir = A at *
  unfold installHeaders
  simp only [hA, hAA]
  obtain ⟨lsts, hls⟩ := mapM_returns (f := fun p => recursiveGlob V lim A p) (l := patterns) fun p _ =>
    (C105_returns V hN hl A p none).1
  rw [hls]
  simp only
  have hmem : ∀ x ∈ lsts.flatten, ∃ ds f, Header T q patterns ds f ∧ x = Glob.below A (ds ++ [f]) := by
    intro x hx
    obtain ⟨l, hl, hx⟩ := List.mem_flatten.1 hx
    obtain ⟨p, hp, hg⟩ := (forall₂_mem (mapM_some hls)).1 l hl
    obtain ⟨ds, f, h1, h2, h3⟩ := (((C105_exact V hg).1 q ho).1 x).1 hx
    exact ⟨ds, f, ⟨h1, p, hp, h2⟩, h3⟩
  generalize lsts.flatten = hs at hmem
  obtain ⟨d, hd⟩ := foldlM_returns (f := fun d h => sourceG E lim d (String.ofList h) []) (l := hs) (by
    intro x hx d
    obtain ⟨ds, f, hf, rfl⟩ := hmem x hx
    exact sourceG_returns hE d [] (hshort ds f hf).2) w.dflt
  rw [hd]
  simp only
  obtain ⟨w1, hw1⟩ := foldlM_returns (f := fun w h => copyG E lim w
      (String.ofList (join (join D.headers tgtdir) (relpath (absPath cwd) h A))) (String.ofList h) adddeps false) (l := hs) (by
    intro x hx w
    obtain ⟨ds, f, hf, rfl⟩ := hmem x hx
    have hdest : String.ofList (join (join D.headers tgtdir) (relpath (absPath cwd) (Glob.below A (ds ++ [f])) A)) =
        pathOf (B ++ ds ++ [f]) := by
      rw [hB, relpath_below hAabs hAnorm (by simp) hf.1.plain, join_absPath hBp (by simp) hf.1.plain, List.append_assoc]
      rfl
    rw [hdest]
    refine copyG_returns hE w adddeps false ?_ ?_
    · rw [show E.home (pathOf (B ++ ds ++ [f])) = pathOf (B ++ ds ++ [f]) from hh _ (by simp [absPath, isabs])]
      exact (hshort ds f hf).1
    · rw [hh _ (isabs_below hAabs hf.1.plain)]
      exact (hshort ds f hf).2) { w with dflt := d }
  rw [hw1]
  simp only
  obtain ⟨w2, hw2⟩ := filesetG_returns (lim := lim) hE (by omega) w1 ("headers://" ++ String.ofList A)
    (hs.map fun h => E.home (String.ofList (join (join D.headers tgtdir) (relpath (absPath cwd) h A)))) [] false
  rw [hw2]
  exact ⟨_, rfl⟩

end

/-! a project with two headers -/

/-- `/src` with `a.h`, `c.c` and `sub/b.h`; `/usr/include` with an older `sub/b.h` in it -/
def hdrEntries : List (List Str × Node) :=
  [([nm "src"], .dir), ([nm "src", nm "a.h"], .file), ([nm "src", nm "c.c"], .file), ([nm "src", nm "sub"], .dir),
   ([nm "src", nm "sub", nm "b.h"], .file), ([nm "usr"], .dir), ([nm "usr", nm "include"], .dir),
   ([nm "usr", nm "include", nm "sub"], .dir), ([nm "usr", nm "include", nm "sub", nm "b.h"], .file)]

theorem hdr_closed : Closed hdrEntries := by decide +kernel

/-- the tree -/
def hdrTree : Tree := Tree.ofList hdrEntries hdr_closed

theorem hdr_noDangling : NoDangling hdrTree := noDangling_ofList _ 20 (by decide +kernel)

theorem hdr_get (d : List Str) (c : Str) {n : Node} (h : hdrTree.get (d ++ [c]) = some n) : (d ++ [c], n) ∈ hdrEntries :=
  look_mem h

theorem hdr_header {ds : List Str} {f : Str} (h : Header hdrTree [nm "src"] [nm "*.h"] ds f) :
    (ds = [] ∧ f = nm "a.h") ∨ (ds = [nm "sub"] ∧ f = nm "b.h") := by
  obtain ⟨⟨h1, h2, -⟩, p, hp, h3⟩ := h
  rw [List.mem_singleton] at hp
  subst hp
  obtain ⟨n, hn⟩ := Option.ne_none_iff_exists'.1 h1
  have hm := hdr_get _ _ hn
  have key : ∀ (x : List Str × Node), x ∈ hdrEntries → x.1 = [nm "src"] ++ ds ++ [f] → x.2 ≠ .dir → Matches (nm "*.h") f →
      (ds = [] ∧ f = nm "a.h") ∨ (ds = [nm "sub"] ∧ f = nm "b.h") := by
    intro x hx e hd hmat
    have hl : x.1.getLast? = some f := by rw [e, List.getLast?_concat]
    have hds : x.1.dropLast.drop 1 = ds := by rw [e, List.dropLast_concat]; rfl
    have hhd : x.1.head? = some (nm "src") := by rw [e]; simp
    rw [← fnmatch_iff] at hmat
    have hall : ∀ x ∈ hdrEntries, x.2 ≠ .dir → x.1.head? = some (nm "src") →
        ((fnmatch (nm "*.h") (x.1.getLast?.getD [])) = true) →
        (x.1.dropLast.drop 1 = [] ∧ x.1.getLast? = some (nm "a.h")) ∨
        (x.1.dropLast.drop 1 = [nm "sub"] ∧ x.1.getLast? = some (nm "b.h")) := by decide +kernel
    have := hall x hx hd hhd (by rw [hl]; exact hmat)
    rw [hl, hds] at this
    simpa using this
  refine key _ hm rfl ?_ h3
  rintro rfl
  exact h2 hn

theorem hdr_solid {q : List Str} {n : Node} (h : (q, n) ∈ hdrEntries) : Solid hdrTree q := by
  have hall : ∀ x ∈ hdrEntries, hdrTree.get x.1 = some .file ∨ hdrTree.get x.1 = some .dir := by decide +kernel
  exact There.solid (hall _ h)

theorem hdr_view : Nonempty (View hdrTree []) := ⟨viewOf hdrTree [] (ofList_finite hdr_closed).1⟩

theorem hdr_deep : ∀ q, hdrTree.get q ≠ none → q.length ≤ 4 := (ofList_finite hdr_closed).2 4 (by decide +kernel)

theorem hdr_home : ∀ p : Str, isabs p = true → (envOf hdrTree []).home (String.ofList p) = String.ofList p := fun _ _ => rfl

/-- where they go -/
def hdrDest : List Str := [nm "usr", nm "include", nm "lib"]

theorem hdr_plain : ∀ q ∈ [hdrDest ++ [] ++ [nm "a.h"], hdrDest ++ [nm "sub"] ++ [nm "b.h"]], ∀ c ∈ q, Plain c := by
  intro q hq c hc
  have : ∀ q ∈ [hdrDest ++ [] ++ [nm "a.h"], hdrDest ++ [nm "sub"] ++ [nm "b.h"]], ∀ c ∈ q,
      c ≠ [] ∧ c ≠ ['.'] ∧ c ≠ ['.', '.'] ∧ '/' ∉ c := by decide +kernel
  obtain ⟨h1, h2, h3, h4⟩ := this q hq c hc
  constructor <;> assumption

theorem hdr_dest : ∀ q ∈ [hdrDest ++ [] ++ [nm "a.h"], hdrDest ++ [nm "sub"] ++ [nm "b.h"]], Solid hdrTree q := by
  intro q hq
  refine ⟨hdr_plain q hq, fun a b t e ht => ?_⟩
  have hall : ∀ x ∈ hdrEntries, x.2 = .file ∨ x.2 = .dir := by decide +kernel
  rcases List.eq_nil_or_concat a with rfl | ⟨a', c, rfl⟩
  · rw [hdrTree.root] at ht; cases ht
  · rw [List.concat_eq_append] at ht
    rcases hall _ (hdr_get _ _ ht) with h | h <;> cases h

theorem hdr_paths : (String.ofList (Glob.below (nm "/src") ([] ++ [nm "a.h"])) = "/src/a.h" ∧
    String.ofList (Glob.below (nm "/src") ([nm "sub"] ++ [nm "b.h"])) = "/src/sub/b.h") ∧
    (pathOf (hdrDest ++ [] ++ [nm "a.h"]) = "/usr/include/lib/a.h" ∧
    pathOf (hdrDest ++ [nm "sub"] ++ [nm "b.h"]) = "/usr/include/lib/sub/b.h") ∧
    (pathOf [nm "src", nm "a.h"] = "/src/a.h" ∧ pathOf [nm "src", nm "sub", nm "b.h"] = "/src/sub/b.h") ∧
    abspath (absPath []) (nm "src") = nm "/src" ∧ join (nm "/usr/include") (nm "lib") = absPath hdrDest := by decide +kernel

theorem hdr_canon : (envOf hdrTree []).canon "/src/a.h" = "/src/a.h" ∧
    (envOf hdrTree []).canon "/src/sub/b.h" = "/src/sub/b.h" ∧
    (envOf hdrTree []).canon "/usr/include/lib/a.h" = "/usr/include/lib/a.h" ∧
    (envOf hdrTree []).canon "/usr/include/lib/sub/b.h" = "/usr/include/lib/sub/b.h" := by
  have hr := envOf_realises hdrTree []
  obtain ⟨-, ⟨p3, p4⟩, ⟨p5, p6⟩, -⟩ := hdr_paths
  have h1 := hr.canon_abs (hdr_solid (q := [nm "src", nm "a.h"]) (n := .file) (by decide +kernel))
  have h2 := hr.canon_abs (hdr_solid (q := [nm "src", nm "sub", nm "b.h"]) (n := .file) (by decide +kernel))
  have h3 := hr.canon_abs (hdr_dest _ (List.mem_cons_self ..))
  have h4 := hr.canon_abs (hdr_dest _ (List.mem_cons_of_mem _ (List.mem_cons_self ..)))
  rw [← p3, ← p4, ← p5, ← p6]
  exact ⟨h1, h2, h3, h4⟩

theorem hdr_opens : Opens hdrTree [] (nm "/src") [nm "src"] := by
  have hw : walkF hdrTree 10 (start [] (nm "/src")) (comps (nm "/src")) = some [nm "src"] := by decide +kernel
  exact ⟨by decide, walkF_sound _ _ _ _ hw, by decide +kernel⟩

theorem hdr_is : Header hdrTree [nm "src"] [nm "*.h"] [] (nm "a.h") ∧
    Header hdrTree [nm "src"] [nm "*.h"] [nm "sub"] (nm "b.h") := by
  have hH : ∀ ds f, hdrTree.get ([nm "src"] ++ ds ++ [f]) = some .file → fnmatch (nm "*.h") f = true →
      Header hdrTree [nm "src"] [nm "*.h"] ds f := by
    intro ds f hg hm
    exact ⟨⟨by rw [hg]; simp, by rw [hg]; simp, fun t m e => by rw [hg] at e; cases e⟩, _, by simp, (fnmatch_iff _ _).1 hm⟩
  exact ⟨hH _ _ (by decide +kernel) (by decide +kernel), hH _ _ (by decide +kernel) (by decide +kernel)⟩

attribute [local irreducible] hdrTree hdrDest pathOf Glob.below abspath envOf

/-- C107: the two headers are installed below `/usr/include/lib`. -/
example : ∃ (V : View hdrTree []) (w' : World) (full : String) (targets : List String),
    installHeaders V (envOf hdrTree []) 1000 ⟨nm "/usr/bin", nm "/usr/include", nm "/usr/lib", false⟩ ⟨noReg, noReg⟩ (nm "lib")
      (nm "src") [nm "*.h"] ["libx.so"] = .ok (w', full, targets) ∧
    (∀ t, t ∈ targets ↔ t = "/usr/include/lib/a.h" ∨ t = "/usr/include/lib/sub/b.h") ∧
    Copied (envOf hdrTree []) ["libx.so"] w'.dflt "/usr/include/lib/a.h" "/src/a.h" ∧
    Copied (envOf hdrTree []) ["libx.so"] w'.dflt "/usr/include/lib/sub/b.h" "/src/sub/b.h" := by
  obtain ⟨V⟩ : Nonempty (View hdrTree []) := hdr_view
  obtain ⟨⟨p1, p2⟩, ⟨p3, p4⟩, -, hA, hB⟩ := hdr_paths
  obtain ⟨c1, c2, c3, c4⟩ := hdr_canon
  have hr := envOf_realises hdrTree []
  have ho := hdr_opens
  rw [← hA] at ho
  obtain ⟨⟨w', full, targets⟩, h⟩ := C107_returns V (lim := 1000) (N := 4)
    (D := ⟨nm "/usr/bin", nm "/usr/include", nm "/usr/lib", false⟩) (patterns := [nm "*.h"]) ⟨noReg, noReg⟩ ["libx.so"] hr
    hdr_noDangling hdrTree.root hdr_home ho hB
    (fun c hc => hdr_plain _ (List.mem_cons_self ..) c (List.mem_append.2 (Or.inl (List.mem_append.2 (Or.inl hc))))) hdr_deep
    (by omega) (by
      intro ds f hf
      rw [hA]
      unfold Short
      rcases hdr_header hf with ⟨rfl, rfl⟩ | ⟨rfl, rfl⟩
      · rw [p1, p3, c1, c3]; decide +kernel
      · rw [p2, p4, c2, c4]; decide +kernel)
  obtain ⟨h1, h2, -, -⟩ := C107_headers V hr hdr_noDangling hdrTree.root hdr_home ho hB (by
      intro ds f hf
      rcases hdr_header hf with ⟨rfl, rfl⟩ | ⟨rfl, rfl⟩
      · exact hdr_dest _ (List.mem_cons_self ..)
      · exact hdr_dest _ (List.mem_cons_of_mem _ (List.mem_cons_self ..))) (by
      intro ds f hf
      rw [hA]
      rcases hdr_header hf with ⟨rfl, rfl⟩ | ⟨rfl, rfl⟩
      · rw [p1, p3, c1]; decide +kernel
      · rw [p2, p4, c2]; decide +kernel) (by
      intro ds f ds' f' hf hf'
      rw [hA]
      rcases hdr_header hf with ⟨rfl, rfl⟩ | ⟨rfl, rfl⟩ <;> rcases hdr_header hf' with ⟨rfl, rfl⟩ | ⟨rfl, rfl⟩
      · rw [p1, p3, c1]; decide +kernel
      · rw [p1, p4, c1]; decide +kernel
      · rw [p2, p3, c2]; decide +kernel
      · rw [p2, p4, c2]; decide +kernel) h
  obtain ⟨ha, hb⟩ := hdr_is
  have h3 := h2 _ _ ha
  have h4 := h2 _ _ hb
  rw [hA] at h3 h4
  rw [p1, p3] at h3
  rw [p2, p4] at h4
  refine ⟨V, w', full, targets, h, fun t => ?_, h3, h4⟩
  rw [h1]
  constructor
  · rintro ⟨ds, f, hf, rfl⟩
    rcases hdr_header hf with ⟨rfl, rfl⟩ | ⟨rfl, rfl⟩
    · exact Or.inl p3
    · exact Or.inr p4
  · rintro (rfl | rfl)
    · exact ⟨_, _, ha, p3.symm⟩
    · exact ⟨_, _, hb, p4.symm⟩

end Licant.Misc.Headers
