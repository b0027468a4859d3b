/-
File trees with symbolic links: `os.path.realpath` and `os.path.exists` on them.

The other files use an arbitrary `Env` and assume `Env.Sane` of it.  Here `Env.Sane` is proved for the
environment that any file tree without dangling links gives (`Realises.sane`), so that what is assumed there
is met by real file systems.  With the tree at hand two more properties can be stated: which paths name the
same target (C103) and what the memo of `canonical_path` does (C104).
-/
import Verif.Make.RegisterProps
import Verif.Py.Normal
import Mathlib.Data.List.Induction

set_option autoImplicit false

namespace Licant.Make.Fs
open Licant.Py Licant.Py.Path Licant.Core

/-- what is at a place of the tree -/
inductive Node where
  | file
  | dir
  | link (target : Str)
  deriving DecidableEq

/-- A file system: `get` tells what is at the place reached from the root through the directories named.
Simplification: no permissions, hard links only as equal contents, one root. -/
structure Tree where
  get : List Str → Option Node
  root : get [] = some .dir
  parents : ∀ d c, get (d ++ [c]) ≠ none → get d = some .dir
  names : ∀ d c, get (d ++ [c]) ≠ none → Plain c

/-- where the walk along a path starts -/
def start (cwd : List Str) (p : Str) : List Str := if isabs p = true then [] else cwd

/-- The kernel's path resolution (`path_resolution(7)`), which `os.path.exists` (cache.py:10, make.py:127, 231, 304) goes
through: `Walk T d rest q`: from directory `d` the components `rest` lead to `q`, and everything on the way
exists.  Simplification: no limit on the number of links followed. -/
inductive Walk (T : Tree) : List Str → List Str → List Str → Prop where
  | done {d} : Walk T d [] d
  | skip {d c rest q} : T.get d = some .dir → c = [] ∨ c = ['.'] → Walk T d rest q → Walk T d (c :: rest) q
  | up {d rest q} : T.get d = some .dir → Walk T d.dropLast rest q → Walk T d (['.', '.'] :: rest) q
  | step {d c rest q} : T.get (d ++ [c]) = some .file ∨ T.get (d ++ [c]) = some .dir → Walk T (d ++ [c]) rest q →
      Walk T d (c :: rest) q
  | link {d c t m rest q} : T.get (d ++ [c]) = some (.link t) → Walk T (start d t) (comps t) m → Walk T m rest q →
      Walk T d (c :: rest) q

/-- util.py:284 `os.path.realpath` (posixpath._joinrealpath, not strict): the same without looking whether there is
anything: a name that is not a link is appended, `..` removes the last name.
Simplification: a relative path is resolved from the working directory, where CPython resolves it textually first
and prepends `os.getcwd()`, which has no links, last.  Loops of links have no `q` (CPython stops there). -/
inductive Real (T : Tree) : List Str → List Str → List Str → Prop where
  | done {d} : Real T d [] d
  | skip {d c rest q} : c = [] ∨ c = ['.'] → Real T d rest q → Real T d (c :: rest) q
  | up {d rest q} : Real T d.dropLast rest q → Real T d (['.', '.'] :: rest) q
  | step {d c rest q} : Plain c → (∀ t, T.get (d ++ [c]) ≠ some (.link t)) → Real T (d ++ [c]) rest q →
      Real T d (c :: rest) q
  | link {d c t m rest q} : T.get (d ++ [c]) = some (.link t) → Real T (start d t) (comps t) m → Real T m rest q →
      Real T d (c :: rest) q

/-- no dangling links -/
def NoDangling (T : Tree) : Prop :=
  ∀ d c t, T.get (d ++ [c]) = some (.link t) → ∃ q, Walk T (start d t) (comps t) q

/-- The environment of a process whose working directory is at `cwd` of the tree `T`. -/
structure Realises (T : Tree) (cwd : List Str) (E : Env) : Prop where
  canon : ∀ p q, Real T (start cwd p.toList) (comps p.toList) q → E.canon p = String.ofList (absPath q)
  ex : ∀ p, E.ex p = true ↔ p ≠ "" ∧ ∃ q, Walk T (start cwd p.toList) (comps p.toList) q
  home : ∀ p, E.home (E.home p) = E.home p

/-! ### places -/

variable {T : Tree}

/-- a file or a directory is there -/
def There (T : Tree) (q : List Str) : Prop := T.get q = some .file ∨ T.get q = some .dir

/-- no link on the way to `q` -/
structure Solid (T : Tree) (q : List Str) : Prop where
  plain : ∀ c ∈ q, Plain c
  nolink : ∀ a b t, q = a ++ b → T.get a ≠ some (.link t)

theorem get_prefix (a b : List Str) (hb : b ≠ []) (h : T.get (a ++ b) ≠ none) : T.get a = some .dir := by
  induction b using List.reverseRecOn with
  | nil => exact absurd rfl hb
  | append_singleton b c ih =>
    rw [← List.append_assoc] at h
    have h1 := T.parents _ _ h
    by_cases hb : b = []
    · subst hb; simpa using h1
    · exact ih hb (by rw [h1]; simp)

theorem get_names (q : List Str) (h : T.get q ≠ none) : ∀ c ∈ q, Plain c := by
  induction q using List.reverseRecOn with
  | nil => simp
  | append_singleton q c ih =>
    intro x hx
    rcases List.mem_append.1 hx with hx | hx
    · exact ih (by rw [T.parents _ _ h]; simp) x hx
    · rw [List.mem_singleton] at hx; rw [hx]; exact T.names _ _ h

theorem There.ne {q : List Str} (h : There T q) : T.get q ≠ none := by
  rcases h with h | h <;> rw [h] <;> simp

theorem There.solid {q : List Str} (h : There T q) : Solid T q := by
  refine ⟨get_names q h.ne, ?_⟩
  rintro a b t rfl e
  by_cases hb : b = []
  · subst hb
    rw [List.append_nil] at h
    rcases h with h | h <;> rw [h] at e <;> cases e
  · have := get_prefix a b hb h.ne
    rw [this] at e
    cases e

theorem There.dropLast {q : List Str} (h : There T q) : T.get q.dropLast = some .dir := by
  rcases List.eq_nil_or_concat q with rfl | ⟨q', c, rfl⟩
  · exact T.root
  · rw [List.concat_eq_append] at *
    rw [List.dropLast_concat]
    exact T.parents _ _ h.ne

theorem Solid.dropLast {q : List Str} (h : Solid T q) : Solid T q.dropLast := by
  rcases List.eq_nil_or_concat q with rfl | ⟨q', c, rfl⟩
  · exact h
  · rw [List.concat_eq_append] at *
    rw [List.dropLast_concat]
    refine ⟨fun x hx => h.plain x (by simp [hx]), ?_⟩
    rintro a b t rfl
    exact h.nolink a (b ++ [c]) t (by simp)

theorem solid_start {d : List Str} (h : Solid T d) (t : Str) : Solid T (start d t) := by
  unfold start
  split
  · exact There.solid (Or.inr T.root)
  · exact h

theorem dir_start {d : List Str} (h : T.get d = some .dir) (t : Str) : T.get (start d t) = some .dir := by
  unfold start
  split
  · exact T.root
  · exact h

/-! ### realpath -/

theorem real_det {d rest q q' : List Str} (h : Real T d rest q) (h' : Real T d rest q') : q = q' := by
  induction h generalizing q' with
  | done => cases h'; rfl
  | skip hc _ ih =>
    cases h' with
    | skip _ h2 => exact ih h2
    | up h2 => rcases hc with hc | hc <;> cases hc
    | step hp _ h2 => rcases hc with hc | hc
                      · exact absurd hc hp.ne
                      · exact absurd hc hp.dot
    | link hg _ _ => rcases hc with hc | hc
                     · exact absurd hc (T.names _ _ (by rw [hg]; simp)).ne
                     · exact absurd hc (T.names _ _ (by rw [hg]; simp)).dot
  | up _ ih =>
    cases h' with
    | skip hc h2 => rcases hc with hc | hc <;> cases hc
    | up h2 => exact ih h2
    | step hp _ h2 => exact absurd rfl hp.dotdot
    | link hg _ _ => exact absurd rfl (T.names _ _ (by rw [hg]; simp)).dotdot
  | step hp hn _ ih =>
    cases h' with
    | skip hc h2 => rcases hc with hc | hc
                    · exact absurd hc hp.ne
                    · exact absurd hc hp.dot
    | up h2 => exact absurd rfl hp.dotdot
    | step _ _ h2 => exact ih h2
    | link hg _ _ => exact absurd hg (hn _)
  | link hg _ _ ih1 ih2 =>
    have hp := T.names _ _ (by rw [hg]; simp)
    cases h' with
    | skip hc h2 => rcases hc with hc | hc
                    · exact absurd hc hp.ne
                    · exact absurd hc hp.dot
    | up h2 => exact absurd rfl hp.dotdot
    | step _ hn h2 => exact absurd hg (hn _)
    | link hg' h1 h2 =>
      rw [hg] at hg'
      cases hg'
      rw [← ih1 h1] at h2
      exact ih2 h2

theorem real_solid {d rest q : List Str} (h : Real T d rest q) (hd : Solid T d) : Solid T q := by
  induction h with
  | done => exact hd
  | skip _ _ ih => exact ih hd
  | up _ ih => exact ih hd.dropLast
  | step hp hn _ ih =>
    refine ih ⟨?_, ?_⟩
    · intro x hx
      rcases List.mem_append.1 hx with hx | hx
      · exact hd.plain x hx
      · rw [List.mem_singleton] at hx; rw [hx]; exact hp
    · intro a b t e
      rcases List.eq_nil_or_concat b with rfl | ⟨b', x, rfl⟩
      · rw [List.append_nil] at e; rw [← e]; exact hn t
      · rw [List.concat_eq_append, ← List.append_assoc] at e
        exact hd.nolink a b' t (List.append_inj_left' e rfl)
  | link hg _ _ ih1 ih2 => exact ih2 (ih1 (solid_start hd _))

theorem real_append {d a m b q : List Str} (h : Real T d a m) (h' : Real T m b q) : Real T d (a ++ b) q := by
  induction h with
  | done => exact h'
  | skip hc _ ih => exact .skip hc (ih h')
  | up _ ih => exact .up (ih h')
  | step hp hn _ ih => exact .step hp hn (ih h')
  | link hg h1 _ _ ih2 => exact .link hg h1 (ih2 h')

theorem real_split : ∀ {a d b q : List Str}, Real T d (a ++ b) q → ∃ m, Real T d a m ∧ Real T m b q := by
  intro a
  induction a with
  | nil => intro d b q h; exact ⟨d, .done, h⟩
  | cons c a ih =>
    intro d b q h
    cases h with
    | skip hc h => obtain ⟨m, h1, h2⟩ := ih h; exact ⟨m, .skip hc h1, h2⟩
    | up h => obtain ⟨m, h1, h2⟩ := ih h; exact ⟨m, .up h1, h2⟩
    | step hp hn h => obtain ⟨m, h1, h2⟩ := ih h; exact ⟨m, .step hp hn h1, h2⟩
    | link hg h1 h => obtain ⟨m, h2, h3⟩ := ih h; exact ⟨m, .link hg h1 h2, h3⟩

theorem real_skips {d sk : List Str} (h : Skips sk) : Real T d sk d := by
  induction sk with
  | nil => exact .done
  | cons c sk ih => exact .skip (h c (by simp)) (ih fun x hx => h x (by simp [hx]))

theorem real_of_solid {q : List Str} (h : Solid T q) : Real T [] q q := by
  induction q using List.reverseRecOn with
  | nil => exact .done
  | append_singleton q c ih =>
    have h' := h.dropLast
    rw [List.dropLast_concat] at h'
    exact real_append (ih h') (.step (h.plain c (by simp)) (fun t => h.nolink (q ++ [c]) [] t (by simp)) .done)

/-! ### the kernel's walk -/

theorem walk_real {d rest q : List Str} (h : Walk T d rest q) : Real T d rest q := by
  induction h with
  | done => exact .done
  | skip _ hc _ ih => exact .skip hc ih
  | up _ _ ih => exact .up ih
  | step hg _ ih =>
    refine .step (T.names _ _ (There.ne hg)) ?_ ih
    intro t e
    rcases hg with hg | hg <;> rw [hg] at e <;> cases e
  | link hg _ _ ih1 ih2 => exact .link hg ih1 ih2

theorem walk_there {d rest q : List Str} (h : Walk T d rest q) (hd : There T d) : There T q := by
  induction h with
  | done => exact hd
  | skip _ _ _ ih => exact ih hd
  | up hg _ ih => exact ih (Or.inr hd.dropLast)
  | step hg _ ih => exact ih hg
  | link hg _ _ ih1 ih2 =>
    exact ih2 (ih1 (Or.inr (dir_start (T.parents _ _ (by rw [hg]; simp)) _)))

theorem walk_append {d a m b q : List Str} (h : Walk T d a m) (h' : Walk T m b q) : Walk T d (a ++ b) q := by
  induction h with
  | done => exact h'
  | skip hg hc _ ih => exact .skip hg hc (ih h')
  | up hg _ ih => exact .up hg (ih h')
  | step hg _ ih => exact .step hg (ih h')
  | link hg h1 _ _ ih2 => exact .link hg h1 (ih2 h')

theorem walk_split : ∀ {a d b q : List Str}, Walk T d (a ++ b) q → ∃ m, Walk T d a m ∧ Walk T m b q := by
  intro a
  induction a with
  | nil => intro d b q h; exact ⟨d, .done, h⟩
  | cons c a ih =>
    intro d b q h
    cases h with
    | skip hg hc h => obtain ⟨m, h1, h2⟩ := ih h; exact ⟨m, .skip hg hc h1, h2⟩
    | up hg h => obtain ⟨m, h1, h2⟩ := ih h; exact ⟨m, .up hg h1, h2⟩
    | step hg h => obtain ⟨m, h1, h2⟩ := ih h; exact ⟨m, .step hg h1, h2⟩
    | link hg h1 h => obtain ⟨m, h2, h3⟩ := ih h; exact ⟨m, .link hg h1 h2, h3⟩

theorem walk_skips {d sk : List Str} (hd : T.get d = some .dir) (h : Skips sk) : Walk T d sk d := by
  induction sk with
  | nil => exact .done
  | cons c sk ih => exact .skip hd (h c (by simp)) (ih fun x hx => h x (by simp [hx]))

theorem walk_there_self {q : List Str} (h : There T q) : Walk T [] q q := by
  induction q using List.reverseRecOn with
  | nil => exact .done
  | append_singleton q c ih =>
    have := h.dropLast
    rw [List.dropLast_concat] at this
    exact walk_append (ih (Or.inr this)) (.step h .done)

/-! ### without dangling links -/

theorem real_total (hT : NoDangling T) : ∀ (rest d : List Str), (∀ c ∈ rest, '/' ∉ c) → ∃ q, Real T d rest q := by
  intro rest
  induction rest with
  | nil => intro d _; exact ⟨d, .done⟩
  | cons c rest ih =>
    intro d h
    have hr : ∀ c ∈ rest, '/' ∉ c := fun x hx => h x (by simp [hx])
    by_cases h1 : c = [] ∨ c = ['.']
    · obtain ⟨q, hq⟩ := ih d hr; exact ⟨q, .skip h1 hq⟩
    · by_cases h2 : c = ['.', '.']
      · subst h2; obtain ⟨q, hq⟩ := ih d.dropLast hr; exact ⟨q, .up hq⟩
      · by_cases h3 : ∃ t, T.get (d ++ [c]) = some (.link t)
        · obtain ⟨t, ht⟩ := h3
          obtain ⟨m, hm⟩ := hT d c t ht
          obtain ⟨q, hq⟩ := ih m hr
          exact ⟨q, .link ht (walk_real hm) hq⟩
        · rw [not_or] at h1
          obtain ⟨q, hq⟩ := ih (d ++ [c]) hr
          exact ⟨q, .step ⟨h1.1, h c (by simp), h1.2, h2⟩ (fun t e => h3 ⟨t, e⟩) hq⟩

theorem real_missing {d : List Str} : ∀ {ds q : List Str}, (∀ c ∈ ds, Plain c) → T.get d = none → Real T d ds q →
    T.get q = none := by
  intro ds
  induction ds generalizing d with
  | nil => intro q _ hd h; cases h; exact hd
  | cons c ds ih =>
    intro q hp hd h
    have hpc := hp c (by simp)
    have hn : T.get (d ++ [c]) = none := by
      by_contra hne
      rw [T.parents _ _ hne] at hd
      cases hd
    cases h with
    | skip hc _ => rcases hc with hc | hc
                   · exact absurd hc hpc.ne
                   · exact absurd hc hpc.dot
    | up _ => exact absurd rfl hpc.dotdot
    | step _ _ h => exact ih (fun x hx => hp x (by simp [hx])) hn h
    | link hg _ _ => rw [hn] at hg; cases hg

theorem real_walk_plain (hT : NoDangling T) : ∀ {ds d q : List Str}, (∀ c ∈ ds, Plain c) → There T d → There T q →
    Real T d ds q → Walk T d ds q := by
  intro ds
  induction ds with
  | nil => intro d q _ _ _ h; cases h; exact .done
  | cons c ds ih =>
    intro d q hp hd hq h
    have hpc := hp c (by simp)
    have hps : ∀ x ∈ ds, Plain x := fun x hx => hp x (by simp [hx])
    cases h with
    | skip hc _ => rcases hc with hc | hc
                   · exact absurd hc hpc.ne
                   · exact absurd hc hpc.dot
    | up _ => exact absurd rfl hpc.dotdot
    | step _ hn h =>
      have : There T (d ++ [c]) := by
        cases hg : T.get (d ++ [c]) with
        | none => exact absurd (real_missing hps hg h) hq.ne
        | some e =>
          cases e with
          | file => exact Or.inl hg
          | dir => exact Or.inr hg
          | link t => exact absurd hg (hn t)
      exact .step this (ih hps this hq h)
    | link hg h1 h2 =>
      obtain ⟨m, hm⟩ := hT _ _ _ hg
      rw [real_det h1 (walk_real hm)] at h2
      have hdir := T.parents _ _ (by rw [hg]; simp)
      exact .link hg hm (ih hps (walk_there hm (Or.inr (dir_start hdir _))) hq h2)

theorem real_walk_normal (hT : NoDangling T) {abs : Bool} {cs d q : List Str} (hcs : Normal abs cs)
    (hd : T.get d = some .dir) (hq : There T q) (h : Real T d cs q) : Walk T d cs q := by
  obtain ⟨k, ds, rfl, hp, hk⟩ := hcs
  clear hk
  induction k generalizing d with
  | zero => exact real_walk_plain hT hp (Or.inr hd) hq h
  | succ k ih =>
    rw [List.replicate_succ, List.cons_append] at h ⊢
    cases h with
    | skip hc _ => rcases hc with hc | hc <;> cases hc
    | up h => exact .up hd (ih (There.dropLast (Or.inr hd)) h)
    | step hp _ _ => exact absurd rfl hp.dotdot
    | link hg _ _ => exact absurd rfl (T.names _ _ (by rw [hg]; simp)).dotdot

theorem walk_ups (k : Nat) {d : List Str} (hd : T.get d = some .dir) :
    ∃ q, Walk T d (List.replicate k ['.', '.']) q := by
  induction k generalizing d with
  | zero => exact ⟨d, .done⟩
  | succ k ih =>
    obtain ⟨q, hq⟩ := ih (There.dropLast (Or.inr hd))
    exact ⟨q, .up hd hq⟩

/-! ### absolute paths -/

theorem comps_absPath {q : List Str} (h : ∀ c ∈ q, Plain c) :
    ∃ sk, Skips sk ∧ comps (absPath q) = sk ++ q := by
  unfold absPath
  rw [comps_slash]
  by_cases hq : q = []
  · subst hq; exact ⟨[[], []], by simp [Skips], rfl⟩
  · exact ⟨[[]], by simp [Skips], by rw [comps_intercalate hq fun c hc => (h c hc).noslash]; rfl⟩

theorem start_absPath (cwd q : List Str) : start cwd (absPath q) = [] := by
  simp [start, absPath, isabs]

theorem absPath_inj {q q' : List Str} (h : ∀ c ∈ q, Plain c) (h' : ∀ c ∈ q', Plain c)
    (e : absPath q = absPath q') : q = q' := by
  unfold absPath at e
  rw [List.cons.injEq] at e
  have e := e.2
  by_cases hq : q = []
  · subst hq
    by_contra hne
    obtain ⟨x, r, he, _⟩ := render_head (fun c hc => ⟨(h' c hc).ne, (h' c hc).noslash⟩) (Ne.symm hne)
    rw [he] at e
    cases e
  · by_cases hq' : q' = []
    · subst hq'
      obtain ⟨x, r, he, _⟩ := render_head (fun c hc => ⟨(h c hc).ne, (h c hc).noslash⟩) hq
      rw [he] at e
      cases e
    · rw [← comps_intercalate hq fun c hc => (h c hc).noslash, e,
        comps_intercalate hq' fun c hc => (h' c hc).noslash]

theorem ofList_inj {a b : List Char} (h : String.ofList a = String.ofList b) : a = b := by
  have := congrArg String.toList h
  simpa using this

/-! ### the environment of a tree -/

section
variable {cwd : List Str} {E : Env}

theorem Realises.canon_abs (h : Realises T cwd E) {q : List Str} (hq : Solid T q) :
    E.canon (String.ofList (absPath q)) = String.ofList (absPath q) := by
  apply h.canon
  rw [String.toList_ofList, start_absPath]
  obtain ⟨sk, h1, h2⟩ := comps_absPath hq.plain
  rw [h2]
  exact real_append (real_skips h1) (real_of_solid hq)

theorem ofList_ne {l : List Char} (h : l ≠ []) : String.ofList l ≠ "" := by
  intro e
  exact h (ofList_inj e)

theorem Realises.ex_abs (h : Realises T cwd E) {q : List Str} (hq : There T q) :
    E.ex (String.ofList (absPath q)) = true := by
  rw [h.ex]
  refine ⟨ofList_ne (by simp [absPath]), q, ?_⟩
  rw [String.toList_ofList, start_absPath]
  obtain ⟨sk, h1, h2⟩ := comps_absPath hq.solid.plain
  rw [h2]
  exact walk_append (walk_skips T.root h1) (walk_there_self hq)

theorem Realises.of_ex_abs (h : Realises T cwd E) {q : List Str} (hq : Solid T q)
    (he : E.ex (String.ofList (absPath q)) = true) : There T q := by
  rw [h.ex] at he
  obtain ⟨_, q', he⟩ := he
  rw [String.toList_ofList, start_absPath] at he
  obtain ⟨sk, h1, h2⟩ := comps_absPath hq.plain
  have hr := walk_real he
  rw [h2] at hr
  rw [real_det (real_append (real_skips h1) (real_of_solid hq)) hr]
  exact walk_there he (Or.inr T.root)

theorem Realises.real (h : Realises T cwd E) (hT : NoDangling T) (p : String) :
    ∃ q, Real T (start cwd p.toList) (comps p.toList) q ∧ E.canon p = String.ofList (absPath q) := by
  obtain ⟨q, hq⟩ := real_total hT (comps p.toList) (start cwd p.toList) fun c hc => Licant.Cxx.comps_noslash_mem hc
  exact ⟨q, hq, h.canon p q hq⟩

/-- the components of an ancestor, and those of the next one -/
theorem anc_comps (p : String) (i : Nat) : ∃ (abs : Bool) (cs sk sk' : List Str), Normal abs cs ∧ Skips sk ∧ Skips sk' ∧
    isabs (anc p i).toList = abs ∧ comps (anc p i).toList = sk ++ cs ∧
    isabs (anc p (i + 1)).toList = abs ∧ comps (anc p (i + 1)).toList = sk' ++ cs.dropLast := by
  have e : (anc p i).toList = normpath (dirname (Path.parent^[i] p.toList)) := by
    unfold anc
    rw [toList_iterate, Function.iterate_succ_apply']
    rfl
  have e' : (anc p (i + 1)).toList = Path.parent (anc p i).toList := by
    unfold anc
    rw [toList_iterate, toList_iterate, Function.iterate_succ_apply']
  generalize dirname (Path.parent^[i] p.toList) = r at e
  obtain ⟨h1, sk, h2, h3⟩ := comps_normpath r
  obtain ⟨h4, sk', h5, h6⟩ := comps_parent_normpath r
  rw [e', e]
  exact ⟨isabs r, reduced r, sk, sk', reduced_normal r, h2, h5, h1, h3, h4, h6⟩

theorem anc_ne (p : String) (i : Nat) : anc p i ≠ "" := by
  intro e
  have := congrArg String.toList e
  unfold anc at this
  rw [toList_iterate, Function.iterate_succ_apply'] at this
  exact normpath_ne _ this

/-- What is assumed of paths elsewhere holds in every file tree without dangling links, from every working
directory. -/
theorem Realises.sane (h : Realises T cwd E) (hT : NoDangling T) (hcwd : T.get cwd = some .dir) : E.Sane := by
  have hsol : ∀ p : String, Solid T (start cwd p.toList) := fun p => solid_start (There.solid (Or.inr hcwd)) _
  have hdir : ∀ p : String, T.get (start cwd p.toList) = some .dir := fun p => dir_start hcwd _
  refine ⟨?_, h.home, ?_, ?_, ?_, ?_, ?_, ?_⟩
  · intro p
    obtain ⟨q, hq, e⟩ := h.real hT p
    rw [e]
    exact h.canon_abs (real_solid hq (hsol p))
  · intro p hp
    rw [h.ex]
    have key : ∀ l : Str, p.toList = l → l ≠ [] → Skips (comps l) →
        p ≠ "" ∧ ∃ q, Walk T (start cwd p.toList) (comps p.toList) q := by
      intro l e hl hs
      refine ⟨?_, start cwd p.toList, ?_⟩
      · rintro rfl; exact hl e.symm
      · rw [e]; exact walk_skips (dir_start hcwd _) hs
    rcases hp with hp | hp | hp
    · exact key _ hp (by simp) (by unfold Skips; decide +kernel)
    · exact key _ hp (by simp) (by unfold Skips; decide +kernel)
    · exact key _ hp (by simp) (by unfold Skips; decide +kernel)
  · intro p hp
    obtain ⟨_, q, hq⟩ := (h.ex p).1 hp
    rw [h.canon p q (walk_real hq)]
    exact h.ex_abs (walk_there hq (Or.inr (hdir p)))
  · intro p i
    obtain ⟨q, hq, e⟩ := h.real hT (anc p i)
    rw [e, Bool.eq_iff_iff]
    constructor
    · intro hx
      have hth := h.of_ex_abs (real_solid hq (hsol _)) hx
      obtain ⟨abs, cs, sk, _, hn, hs, _, _, h2, _⟩ := anc_comps p i
      rw [h.ex]
      refine ⟨anc_ne p i, q, ?_⟩
      rw [h2] at hq ⊢
      obtain ⟨m, hm1, hm2⟩ := real_split hq
      rw [← real_det (real_skips hs) hm1] at hm2
      exact walk_append (walk_skips (hdir _) hs) (real_walk_normal hT hn (hdir _) hth hm2)
    · intro hx
      obtain ⟨_, q', hq'⟩ := (h.ex _).1 hx
      rw [← real_det (walk_real hq') hq]
      exact h.ex_abs (walk_there hq' (Or.inr (hdir _)))
  · intro p hp
    obtain ⟨_, q, hq⟩ := (h.ex p).1 hp
    rw [h.canon p q (walk_real hq)]
    have hth := walk_there hq (Or.inr (hdir p))
    unfold parent
    rw [String.toList_ofList]
    rcases List.eq_nil_or_concat q with rfl | ⟨q', c, rfl⟩
    · exact h.ex_abs (q := []) (Or.inr T.root)
    · rw [List.concat_eq_append] at hth ⊢
      have hp := hth.solid.plain
      rw [parent_absPath (fun x hx => hp x (by simp [hx])) (hp c (by simp))]
      refine h.ex_abs (Or.inr ?_)
      have := hth.dropLast
      rwa [List.dropLast_concat] at this
  · intro p i hx
    obtain ⟨abs, cs, sk, sk', hn, hs, hs', h1, h2, h3, h4⟩ := anc_comps p i
    obtain ⟨_, q, hq⟩ := (h.ex _).1 hx
    rw [h.ex]
    refine ⟨anc_ne p _, ?_⟩
    have e : start cwd (anc p (i + 1)).toList = start cwd (anc p i).toList := by unfold start; rw [h1, h3]
    rw [h2] at hq
    obtain ⟨m, hm1, hm2⟩ := walk_split hq
    rw [← real_det (real_skips hs) (walk_real hm1)] at hm2
    rw [h4, e]
    rcases List.eq_nil_or_concat cs with rfl | ⟨cs', c, rfl⟩
    · exact ⟨_, walk_append (walk_skips (hdir _) hs') .done⟩
    · rw [List.concat_eq_append] at hm2 ⊢
      rw [List.dropLast_concat]
      obtain ⟨m', h5, _⟩ := walk_split hm2
      exact ⟨m', walk_append (walk_skips (hdir _) hs') h5⟩
  · intro p i hx
    obtain ⟨abs, cs, sk, sk', hn, hs, hs', h1, h2, h3, h4⟩ := anc_comps p i
    have e : start cwd (anc p (i + 1)).toList = start cwd (anc p i).toList := by unfold start; rw [h1, h3]
    have hno : ∀ q, ¬Walk T (start cwd (anc p i).toList) cs q := by
      intro q hq
      have : E.ex (anc p i) = true := by
        rw [h.ex]
        refine ⟨anc_ne p i, q, ?_⟩
        rw [h2]
        exact walk_append (walk_skips (hdir _) hs) hq
      rw [hx] at this
      cases this
    obtain ⟨k, ds, hcs, hp, hk⟩ := id hn
    rcases List.eq_nil_or_concat ds with rfl | ⟨ds', c, rfl⟩
    · rw [List.append_nil] at hcs
      obtain ⟨q, hq⟩ := walk_ups (T := T) k (hdir (anc p i))
      exact absurd (hcs ▸ hq) (hno q)
    · rw [List.concat_eq_append, ← List.append_assoc] at hcs
      rw [List.concat_eq_append] at hp
      have hpc := hp c (by simp)
      generalize hcs' : List.replicate k ['.', '.'] ++ ds' = cs' at hcs
      subst hcs
      have hn' := hn.dropLast
      rw [List.dropLast_concat] at hn' h4
      obtain ⟨q', hq'⟩ := real_total hT cs' (start cwd (anc p i).toList) fun c hc => (hn'.mem c hc).2
      have hlink : ∀ t, T.get (q' ++ [c]) ≠ some (.link t) := by
        intro t ht
        have hd := T.parents _ _ (by rw [ht]; simp)
        obtain ⟨m, hm⟩ := hT _ _ _ ht
        exact hno m (walk_append (real_walk_normal hT hn' (hdir _) (Or.inr hd) hq') (.link ht hm .done))
      have hreal : Real T (start cwd (anc p i).toList) (cs' ++ [c]) (q' ++ [c]) :=
        real_append hq' (.step hpc hlink .done)
      rw [h.canon (anc p i) (q' ++ [c]) (by rw [h2]; exact real_append (real_skips hs) hreal)]
      rw [h.canon (anc p (i + 1)) q' (by rw [h4, e]; exact real_append (real_skips hs') hq')]
      unfold parent
      rw [String.toList_ofList, parent_absPath (real_solid hq' (hsol _)).plain hpc]

end

/-! ### C103: which paths name the same target -/

/-- The place a path stands for: the file or directory that is there, or, if nothing is there, a name in an existing
directory. -/
inductive At (T : Tree) (cwd : List Str) (p : String) : List Str → Prop where
  | there {q} : p ≠ "" → Walk T (start cwd p.toList) (comps p.toList) q → At T cwd p q
  | missing {ds d c} : comps p.toList = ds ++ [c] → Plain c → Walk T (start cwd p.toList) ds d →
      T.get d = some .dir → T.get (d ++ [c]) = none → At T cwd p (d ++ [c])

theorem At.real {cwd q : List Str} {p : String} (h : At T cwd p q) :
    Real T (start cwd p.toList) (comps p.toList) q := by
  cases h with
  | there _ h => exact walk_real h
  | missing e hp h _ hn =>
    rw [e]
    exact real_append (walk_real h) (.step hp (fun t ht => by rw [hn] at ht; cases ht) .done)

/-- `canonical_path` gives the same for two paths exactly if they stand for the same place. -/
theorem C103_canonical {cwd : List Str} {E : Env} (h : Realises T cwd E) (hcwd : T.get cwd = some .dir)
    {p p' : String} {q q' : List Str} (hp : At T cwd p q) (hp' : At T cwd p' q') :
    E.canon p = E.canon p' ↔ q = q' := by
  have hs : ∀ p : String, Solid T (start cwd p.toList) := fun p => solid_start (There.solid (Or.inr hcwd)) _
  rw [h.canon p q hp.real, h.canon p' q' hp'.real]
  constructor
  · intro e
    exact absPath_inj (real_solid hp.real (hs p)).plain (real_solid hp'.real (hs p')).plain (ofList_inj e)
  · rintro rfl; rfl

/-- What happens to a core: a target for a file is registered (make.py:121-138 with core.py:62-73), or the core is
asked for a name (core.py:86-96). -/
inductive FileOp where
  | file (p : String) (deps : List String)
  | has (n : String)

/-- the operations of the core -/
def FileOp.op (E : Env) : FileOp → Op
  | .file p deps => .add (makeObj (E.canon p) deps)
  | .has n => .has n

/-- the paths registered, in order: the target object made for the `i`-th has number `i` -/
def paths : List FileOp → List String
  | [] => []
  | .file p _ :: ops => p :: paths ops
  | .has _ :: ops => paths ops

/-- what a core with file targets for the paths `reg` looks like -/
structure FileInv (E : Env) (reg : List String) (c : Reg) : Prop where
  next : c.next = reg.length
  stored : ∀ i p, reg[i]? = some p → c.targets.get (E.canon p) = some i
  names : ∀ k i, c.targets.get k = some i → ∃ p, reg[i]? = some p ∧ E.canon k = E.canon p

theorem fileInv_run {E : Env} (hi : Idempotent E.canon) : ∀ (ops : List FileOp) (reg : List String) (c : Reg),
    FileInv E reg c → ((reg ++ paths ops).map E.canon).Nodup →
    FileInv E (reg ++ paths ops) (runOps E.canon c (ops.map (FileOp.op E))) := by
  intro ops
  induction ops with
  | nil => intro reg c h _; simpa [paths, runOps] using h
  | cons op ops ih =>
    intro reg c h hnd
    cases op with
    | has n =>
      refine ih reg _ ?_ hnd
      unfold has
      split
      · exact h
      · rename_i hn
        have hn' : c.targets.get n = none := by simpa [Dict.has] using hn
        split
        · rename_i o ho
          refine ⟨h.next, ?_, ?_⟩
          · intro i p hp
            have := h.stored i p hp
            rw [Dict.get_set, if_neg]
            · exact this
            · rintro rfl; rw [hn'] at this; cases this
          · intro k i hk
            rw [Dict.get_set] at hk
            split at hk
            · rename_i e
              subst e
              cases hk
              obtain ⟨p, h1, h2⟩ := h.names _ _ ho
              exact ⟨p, h1, by rw [← h2, hi]⟩
            · exact h.names k i hk
        · exact h
    | file p deps =>
      have e : reg ++ paths (.file p deps :: ops) = (reg ++ [p]) ++ paths ops := by simp [paths]
      rw [e] at hnd ⊢
      refine ih (reg ++ [p]) _ ?_ hnd
      have hnew : ∀ x ∈ reg, E.canon p ≠ E.canon x := by
        intro x hx e
        rw [List.map_append, List.map_append, List.append_assoc] at hnd
        have := (List.nodup_append.1 hnd).2.2 (E.canon x) (List.mem_map_of_mem hx) (E.canon p) (by simp)
        exact this e.symm
      refine ⟨by simp [add, h.next], ?_, ?_⟩
      · intro i x hx
        simp only [add, makeObj]
        rw [Dict.get_set]
        rw [List.getElem?_append] at hx
        split at hx
        · rw [if_neg (hnew x (List.mem_of_getElem? hx))]
          exact h.stored i x hx
        · rename_i hlt
          have : i = reg.length := by
            by_contra hne
            rw [List.getElem?_eq_none (by simp; omega)] at hx
            cases hx
          subst this
          simp only [Nat.sub_self, List.getElem?_cons_zero, Option.some.injEq] at hx
          rw [hx, if_pos rfl, h.next]
      · intro k i hk
        simp only [add, makeObj] at hk
        rw [Dict.get_set] at hk
        split at hk
        · rename_i e
          cases hk
          refine ⟨p, ?_, by rw [← e, hi]⟩
          rw [h.next, List.getElem?_append_right (le_refl _)]
          simp
        · obtain ⟨x, h1, h2⟩ := h.names k i hk
          refine ⟨x, ?_, h2⟩
          rw [List.getElem?_append_left]
          · exact h1
          · by_contra hlt
            rw [List.getElem?_eq_none (by omega)] at h1
            cases h1

/-- C103: in a core in which targets were registered for files (or missing files in existing directories) at different
places, each once, whatever the core was asked in between, looking up any path gives the target of the place the
path stands for, however path and target are spelled and whatever links they go through; and there is no such target
iff no target was registered for that place. -/
theorem C103_same_file {cwd : List Str} {E : Env} (h : Realises T cwd E) (hT : NoDangling T)
    (hcwd : T.get cwd = some .dir) (ops : List FileOp) (place : String → List Str)
    (hat : ∀ p ∈ paths ops, At T cwd p (place p)) (hnd : ((paths ops).map place).Nodup)
    {p : String} {q : List Str} (hp : At T cwd p q) :
    (∀ i, get E.canon (runOps E.canon Reg.empty (ops.map (FileOp.op E))) p = .ok i ↔
      ∃ p', (paths ops)[i]? = some p' ∧ place p' = q) ∧
    (get E.canon (runOps E.canon Reg.empty (ops.map (FileOp.op E))) p = .error .exit ↔
      ∀ p' ∈ paths ops, place p' ≠ q) := by
  have hi := (h.sane hT hcwd).idem
  have hinv : FileInv E (paths ops) (runOps E.canon Reg.empty (ops.map (FileOp.op E))) := by
    have := fileInv_run hi ops [] Reg.empty ⟨rfl, by simp, by simp [Reg.empty]⟩ (by
      rw [List.nil_append, List.nodup_iff_pairwise_ne, List.pairwise_map]
      rw [List.nodup_iff_pairwise_ne, List.pairwise_map] at hnd
      refine hnd.imp_of_mem ?_
      intro a b ha hb hab e
      exact hab ((C103_canonical h hcwd (hat a ha) (hat b hb)).1 e))
    simpa using this
  generalize runOps E.canon Reg.empty (ops.map (FileOp.op E)) = c at *
  have key : ∀ i, get E.canon c p = .ok i ↔ ∃ p', (paths ops)[i]? = some p' ∧ place p' = q := by
    intro i
    have hn : ∀ k, (c.targets.get p = some k ∨ c.targets.get (E.canon p) = some k) →
        ∃ p', (paths ops)[k]? = some p' ∧ place p' = q := by
      intro k hk
      have : ∃ p', (paths ops)[k]? = some p' ∧ E.canon p = E.canon p' := by
        rcases hk with hk | hk
        · exact hinv.names _ _ hk
        · obtain ⟨p', h1, h2⟩ := hinv.names _ _ hk
          exact ⟨p', h1, by rw [← h2, hi]⟩
      obtain ⟨p', h1, h2⟩ := this
      exact ⟨p', h1, ((C103_canonical h hcwd hp (hat p' (List.mem_of_getElem? h1))).1 h2).symm⟩
    constructor
    · intro hg
      rw [get_ok] at hg
      rcases hg with hg | ⟨_, hg⟩
      · exact hn i (Or.inl hg)
      · exact hn i (Or.inr hg)
    · rintro ⟨p', h1, h2⟩
      have hc : E.canon p = E.canon p' :=
        (C103_canonical h hcwd hp (hat p' (List.mem_of_getElem? h1))).2 h2.symm
      rw [get_ok]
      cases hg : c.targets.get p with
      | none => exact Or.inr ⟨hg, by rw [hc]; exact hinv.stored i p' h1⟩
      | some k =>
        left
        obtain ⟨p'', h3, h4⟩ := hn k (Or.inl hg)
        rw [hg]
        congr 1
        have hlt : k < ((paths ops).map place).length := by
          by_contra hl
          rw [List.getElem?_eq_none (by simpa using hl)] at h3
          cases h3
        refine (List.nodup_iff_getElem?_ne_getElem?.1 hnd |> fun hh => ?_)
        by_contra hne
        have e : ((paths ops).map place)[k]? = ((paths ops).map place)[i]? := by
          rw [List.getElem?_map, List.getElem?_map, h3, h1]
          simp [h2, h4]
        have hlt' : i < ((paths ops).map place).length := by
          by_contra hl
          rw [List.getElem?_eq_none (by simpa using hl)] at h1
          cases h1
        rcases Nat.lt_or_gt_of_ne hne with hki | hki
        · exact hh k i hki hlt' e
        · exact hh i k hki hlt e.symm
  refine ⟨key, ?_⟩
  constructor
  · intro he p' hp' e
    obtain ⟨i, hi'⟩ := List.getElem?_of_mem hp'
    rw [(key i).2 ⟨p', hi', e⟩] at he
    cases he
  · intro hno
    rw [← get_err]
    intro o ho
    obtain ⟨p', h1, h2⟩ := (key o).1 (get_ok.2 ho)
    exact hno p' (List.mem_of_getElem? h1) h2

/-! ### C104: the memo -/

/-- util.py:273-288 `canonical_path`: the answers given are remembered (`canonical_path_lazy_store`); `real` is
`os.path.realpath` at the time of the call. -/
def canonicalPath (real : String → String) (m : Dict String String) (p : String) : Dict String String × String :=
  match m.get p with
  | some v => (m, v)
  | none => (m.set p (real p), real p)

/-- the memo after a history of calls, each with the file system it met -/
def afterCalls : Dict String String → List ((String → String) × String) → Dict String String
  | m, [] => m
  | m, (real, p) :: cs => afterCalls (canonicalPath real m p).1 cs

theorem afterCalls_get : ∀ (calls : List ((String → String) × String)) (m : Dict String String) (p : String),
    (afterCalls m calls).get p = match m.get p with
      | some v => some v
      | none => (calls.find? fun c => c.2 == p).map fun c => c.1 p := by
  intro calls
  induction calls with
  | nil => intro m p; unfold afterCalls; cases m.get p <;> rfl
  | cons c calls ih =>
    intro m p
    obtain ⟨real, n⟩ := c
    unfold afterCalls
    rw [ih]
    unfold canonicalPath
    cases hn : m.get n with
    | some v =>
      simp only
      cases hp : m.get p with
      | some v => rfl
      | none =>
        have : ¬n = p := by rintro rfl; rw [hn] at hp; cases hp
        simp [this]
    | none =>
      simp only [Dict.get_set]
      by_cases e : n = p
      · subst e; simp [hn]
      · simp [e]

/-- C104, what holds: within a process `canonical_path(p)` is always what `os.path.realpath(p)` was at the first call
for `p`. So it is right exactly as long as that does not change. -/
theorem C104_partial (calls : List ((String → String) × String)) (real : String → String) (p : String) :
    (canonicalPath real (afterCalls [] calls) p).2 =
      match calls.find? fun c => c.2 == p with
      | some c => c.1 p
      | none => real p := by
  unfold canonicalPath
  rw [afterCalls_get]
  simp only [Dict.get_nil]
  cases calls.find? fun c => c.2 == p <;> rfl

/-- in particular it is `os.path.realpath(p)` if the file system did not change -/
theorem C104_unchanged (real : String → String) (asked : List String) (p : String) :
    (canonicalPath real (afterCalls [] (asked.map fun n => (real, n))) p).2 = real p := by
  rw [C104_partial]
  split
  · rename_i c hc
    have := List.mem_of_find?_eq_some hc
    obtain ⟨n, _, rfl⟩ := List.mem_map.1 this
    rfl
  · rfl

/-! ### a tree -/

instance (c : Str) : Decidable (Plain c) :=
  decidable_of_iff (c ≠ [] ∧ '/' ∉ c ∧ c ≠ ['.'] ∧ c ≠ ['.', '.'])
    ⟨fun h => ⟨h.1, h.2.1, h.2.2.1, h.2.2.2⟩, fun h => ⟨h.ne, h.noslash, h.dot, h.dotdot⟩⟩

/-- what a list of entries has at a place -/
def look (es : List (List Str × Node)) (q : List Str) : Option Node :=
  if q = [] then some .dir else (es.find? fun e => e.1 == q).map (·.2)

/-- a list of entries that makes a tree -/
def Closed (es : List (List Str × Node)) : Prop :=
  ∀ e ∈ es, look es e.1.dropLast = some .dir ∧ ∀ c ∈ e.1.getLast?, Plain c

instance (es : List (List Str × Node)) : Decidable (Closed es) := by unfold Closed; infer_instance

theorem look_mem {es : List (List Str × Node)} {d : List Str} {c : Str} {n : Node} (h : look es (d ++ [c]) = some n) :
    (d ++ [c], n) ∈ es := by
  unfold look at h
  rw [if_neg (by simp)] at h
  cases hf : es.find? fun e => e.1 == d ++ [c] with
  | none => rw [hf] at h; cases h
  | some e =>
    rw [hf] at h
    have h1 := List.mem_of_find?_eq_some hf
    have h2 := List.find?_some hf
    simp only [beq_iff_eq] at h2
    simp only [Option.map_some, Option.some.injEq] at h
    rw [← h2, ← h]
    exact h1

/-- the tree with these entries -/
def Tree.ofList (es : List (List Str × Node)) (h : Closed es) : Tree where
  get := look es
  root := by simp [look]
  parents := by
    intro d c hne
    obtain ⟨n, hn⟩ := Option.ne_none_iff_exists'.1 hne
    have := (h _ (look_mem hn)).1
    rwa [List.dropLast_concat] at this
  names := by
    intro d c hne
    obtain ⟨n, hn⟩ := Option.ne_none_iff_exists'.1 hne
    exact (h _ (look_mem hn)).2 c (by simp)

/-- walking, as a function -/
def walkF (T : Tree) : Nat → List Str → List Str → Option (List Str)
  | 0, _, _ => none
  | _ + 1, d, [] => some d
  | fuel + 1, d, c :: rest =>
    if c = [] ∨ c = ['.'] then
      if T.get d = some .dir then walkF T fuel d rest else none
    else if c = ['.', '.'] then
      if T.get d = some .dir then walkF T fuel d.dropLast rest else none
    else match T.get (d ++ [c]) with
      | none => none
      | some (.link t) => (walkF T fuel (start d t) (comps t)).bind fun m => walkF T fuel m rest
      | some _ => walkF T fuel (d ++ [c]) rest

theorem walkF_sound : ∀ (fuel : Nat) (d rest q : List Str), walkF T fuel d rest = some q → Walk T d rest q := by
  intro fuel
  induction fuel with
  | zero => intro d rest q h; cases h
  | succ fuel ih =>
    intro d rest q h
    cases rest with
    | nil => simp only [walkF, Option.some.injEq] at h; rw [← h]; exact .done
    | cons c rest =>
      simp only [walkF] at h
      split at h
      · rename_i hc
        split at h
        · rename_i hd; exact .skip hd hc (ih _ _ _ h)
        · cases h
      · split at h
        · rename_i hc
          subst hc
          split at h
          · rename_i hd; exact .up hd (ih _ _ _ h)
          · cases h
        · split at h
          · cases h
          · rename_i t ht
            obtain ⟨m, hm, h⟩ := Option.bind_eq_some_iff.1 h
            exact .link ht (ih _ _ _ hm) (ih _ _ _ h)
          · rename_i n hn hg
            refine .step ?_ (ih _ _ _ h)
            cases n with
            | file => exact Or.inl hg
            | dir => exact Or.inr hg
            | link t => exact absurd rfl (hn t)

theorem noDangling_ofList {es : List (List Str × Node)} (h : Closed es) (fuel : Nat)
    (hw : (es.all fun e => match e.2 with
      | .link t => (walkF (Tree.ofList es h) fuel (start e.1.dropLast t) (comps t)).isSome
      | _ => true) = true) : NoDangling (Tree.ofList es h) := by
  intro d c t ht
  have := List.all_eq_true.1 hw _ (look_mem ht)
  simp only [List.dropLast_concat] at this
  obtain ⟨q, hq⟩ := Option.isSome_iff_exists.1 this
  exact ⟨q, walkF_sound _ _ _ _ hq⟩

open Classical in
/-- the environment of a tree -/
noncomputable def envOf (T : Tree) (cwd : List Str) : Env where
  canon p := if h : ∃ q, Real T (start cwd p.toList) (comps p.toList) q then String.ofList (absPath h.choose) else p
  ex p := decide (p ≠ "" ∧ ∃ q, Walk T (start cwd p.toList) (comps p.toList) q)
  home p := p
  glob _ := []

theorem envOf_realises (T : Tree) (cwd : List Str) : Realises T cwd (envOf T cwd) := by
  refine ⟨?_, ?_, fun _ => rfl⟩
  · intro p q h
    have hex : ∃ q, Real T (start cwd p.toList) (comps p.toList) q := ⟨q, h⟩
    simp only [envOf, hex, dif_pos]
    rw [real_det hex.choose_spec h]
  · intro p; simp [envOf]

/-- a name -/
abbrev nm (s : String) : Str := s.toList

/-- a project with two versions of a directory and links to one of them and to one of its files -/
def entries (current : String) : List (List Str × Node) :=
  [([nm "proj"], .dir), ([nm "proj", nm "v1"], .dir), ([nm "proj", nm "v2"], .dir),
   ([nm "proj", nm "v1", nm "a.c"], .file), ([nm "proj", nm "v2", nm "a.c"], .file),
   ([nm "proj", nm "cur"], .link (nm current)),
   ([nm "proj", nm "v2", nm "top"], .link (nm "..")),
   ([nm "abs.c"], .link (nm "/proj/cur/./a.c"))]

theorem entries_closed : Closed (entries "v1") ∧ Closed (entries "v2") := by decide +kernel

/-- the tree in which `cur` is `v1` -/
def treeV1 : Tree := Tree.ofList (entries "v1") entries_closed.1
/-- the tree in which `cur` is `v2` -/
def treeV2 : Tree := Tree.ofList (entries "v2") entries_closed.2

theorem treeV1_noDangling : NoDangling treeV1 :=
  noDangling_ofList _ 20 (by decide +kernel)

theorem treeV2_noDangling : NoDangling treeV2 :=
  noDangling_ofList _ 20 (by decide +kernel)

theorem walks : (walkF treeV1 20 [nm "proj"] (comps (nm "cur/a.c")) = some [nm "proj", nm "v1", nm "a.c"] ∧
    walkF treeV2 20 [nm "proj"] (comps (nm "cur/a.c")) = some [nm "proj", nm "v2", nm "a.c"]) ∧
    walkF treeV2 20 [nm "proj"] (comps (nm "v1/a.c")) = some [nm "proj", nm "v1", nm "a.c"] ∧
    walkF treeV1 20 [nm "proj"] (comps (nm "v1/a.c")) = some [nm "proj", nm "v1", nm "a.c"] ∧
    walkF treeV1 20 [nm "proj"] (comps (nm "v2/top/../abs.c")) = some [nm "proj", nm "v1", nm "a.c"] ∧
    walkF treeV1 20 [nm "proj"] (comps (nm "v2/top/v1")) = some [nm "proj", nm "v1"] ∧
    treeV1.get [nm "proj"] = some .dir ∧ treeV2.get [nm "proj"] = some .dir ∧
    treeV1.get ([nm "proj", nm "v1"] ++ [nm "a.o"]) = none ∧ treeV1.get [nm "proj", nm "v1"] = some .dir := by
  decide +kernel

theorem at_of {cwd q : List Str} {p : String} (hp : p ≠ "") (ha : isabs p.toList = false) (fuel : Nat)
    (h : walkF T fuel cwd (comps p.toList) = some q) : At T cwd p q := by
  refine .there hp ?_
  unfold start
  rw [ha]
  exact walkF_sound _ _ _ _ h

/-- C104 is violated: after a link was changed, `canonical_path` takes a path for the file it stood for before, and
for the same as a path of another file. -/
theorem C104_violated : ∃ (T T' : Tree) (cwd : List Str) (E E' : Env) (p p' : String) (q q' : List Str),
    Realises T cwd E ∧ NoDangling T ∧ T.get cwd = some .dir ∧
    Realises T' cwd E' ∧ NoDangling T' ∧ T'.get cwd = some .dir ∧
    At T' cwd p q ∧ At T' cwd p' q' ∧ q ≠ q' ∧ E'.canon p ≠ E'.canon p' ∧
    (canonicalPath E'.canon (afterCalls [] [(E.canon, p)]) p).2 =
      (canonicalPath E'.canon (afterCalls [] [(E.canon, p)]) p').2 := by
  have hr := envOf_realises treeV1 [nm "proj"]
  have hr' := envOf_realises treeV2 [nm "proj"]
  obtain ⟨⟨w1, w2⟩, w3, w4, _, _, d1, d2, _⟩ := walks
  have a1 : At treeV1 [nm "proj"] "cur/a.c" _ := at_of (by decide) (by decide) 20 w1
  have a2 : At treeV2 [nm "proj"] "cur/a.c" _ := at_of (by decide) (by decide) 20 w2
  have a3 : At treeV2 [nm "proj"] "v1/a.c" _ := at_of (by decide) (by decide) 20 w3
  refine ⟨treeV1, treeV2, [nm "proj"], envOf treeV1 [nm "proj"], envOf treeV2 [nm "proj"], "cur/a.c", "v1/a.c",
    _, _, hr, treeV1_noDangling, d1, hr', treeV2_noDangling, d2, a2, a3, by decide, ?_, ?_⟩
  · intro e
    exact absurd ((C103_canonical hr' d2 a2 a3).1 e) (by decide)
  · rw [C104_partial, C104_partial]
    rw [show List.find? (fun c => c.2 == "cur/a.c") [((envOf treeV1 [nm "proj"]).canon, "cur/a.c")] =
      some ((envOf treeV1 [nm "proj"]).canon, "cur/a.c") from by simp]
    rw [show List.find? (fun c => c.2 == "v1/a.c") [((envOf treeV1 [nm "proj"]).canon, "cur/a.c")] = none from by simp]
    simp only
    rw [hr.canon _ _ a1.real, hr'.canon _ _ a3.real]

/-- `Env.Sane` holds for this project -/
example : (envOf treeV1 [nm "proj"]).Sane :=
  (envOf_realises _ _).sane treeV1_noDangling walks.2.2.2.2.2.2.1

/-- C103 with paths through links, and one of a missing file -/
example : ∃ (ops : List FileOp) (place : String → List Str),
    (∀ p ∈ paths ops, At treeV1 [nm "proj"] p (place p)) ∧ ((paths ops).map place).Nodup ∧
    get (envOf treeV1 [nm "proj"]).canon
      (runOps (envOf treeV1 [nm "proj"]).canon Reg.empty (ops.map (FileOp.op (envOf treeV1 [nm "proj"]))))
      "v2/top/../abs.c" = .ok 1 := by
  obtain ⟨⟨w1, _⟩, _, w4, w5, w6, d1, _, n1, n2⟩ := walks
  let place : String → List Str := fun p =>
    if p = "cur/a.c" then [nm "proj", nm "v1", nm "a.c"] else [nm "proj", nm "v1"] ++ [nm "a.o"]
  have hat : ∀ p ∈ ["v2/top/v1/a.o", "cur/a.c"], At treeV1 [nm "proj"] p (place p) := by
    intro p hp
    simp only [List.mem_cons, List.not_mem_nil, or_false] at hp
    rcases hp with rfl | rfl
    · have hw : Walk treeV1 [nm "proj"] (comps (nm "v2/top/v1")) [nm "proj", nm "v1"] := walkF_sound _ _ _ _ w6
      exact .missing (ds := comps (nm "v2/top/v1")) (d := [nm "proj", nm "v1"]) (c := nm "a.o") (by decide +kernel)
        (by decide) hw n2 n1
    · exact at_of (by decide) (by decide) 20 w1
  have ha : At treeV1 [nm "proj"] "v2/top/../abs.c" [nm "proj", nm "v1", nm "a.c"] := at_of (by decide) (by decide) 20 w5
  refine ⟨[.file "v2/top/v1/a.o" [], .has "v1/a.c", .file "cur/a.c" [], .has "./cur/a.c"], place, hat, by decide, ?_⟩
  exact ((C103_same_file (envOf_realises _ _) treeV1_noDangling d1
    [.file "v2/top/v1/a.o" [], .has "v1/a.c", .file "cur/a.c" [], .has "./cur/a.c"] place hat (by decide) ha).1 1).2
    ⟨"cur/a.c", rfl, rfl⟩

end Licant.Make.Fs
