/-
Model of the searches in directory trees: `util.recursive_glob`, used by `install_headers`, and `util.find_recursive`,
used by `execute_recursive`, on the file trees of `Verif.Make.Tree`.
C105: `recursive_glob` finds exactly the matching files; C106: `execute_recursive` runs exactly the scripts that are not
hidden (violated: the directory that is searched can itself count as hidden).
-/
import Verif.Make.Tree
import Mathlib.Data.List.Dedup

set_option autoImplicit false

namespace Licant.Misc.Glob
open Licant.Py Licant.Py.Path Licant.Make.Fs Licant.Cxx

/-! ### model -/

/-- What `os.scandir` tells about the tree `T` to a process with the working directory `cwd`:
* `ls`: the names in a directory, in the order of the file system
* `isdir`: `entry.is_dir()`, which follows links
* `opendir`: the directory a path leads to, if it leads to one -/
structure View (T : Tree) (cwd : List Str) where
  ls : List Str → List Str
  isdir : List Str → Str → Bool
  opendir : Str → Option (List Str)
  mem_ls : ∀ d c, c ∈ ls d ↔ T.get (d ++ [c]) ≠ none
  nodup : ∀ d, (ls d).Nodup
  isdir_iff : ∀ d c, isdir d c = true ↔ T.get (d ++ [c]) = some .dir ∨
    ∃ t m, T.get (d ++ [c]) = some (.link t) ∧ Walk T (start d t) (comps t) m ∧ T.get m = some .dir
  opendir_iff : ∀ p q, opendir p = some q ↔ p ≠ [] ∧ Walk T (start cwd p) (comps p) q ∧ T.get q = some .dir

variable {T : Tree} {cwd : List Str}

/-- CPython's `os.walk(top)` with its defaults (used in util.py:219, 229, 267): the directories visited, each with the names
in it that are no directories.  Links to directories are not followed; nothing is visited if `top` is no directory (the
error is ignored).  The first argument is the remaining recursion depth; `none` if it is exceeded. -/
def osWalk (V : View T cwd) : Nat → Str → Option (List (Str × List Str))
  | 0, _ => none
  | n + 1, top =>
    match V.opendir top with
    | none => some []
    | some q =>
      let files := (V.ls q).filter fun c => !V.isdir q c
      let dirs := (V.ls q).filter fun c => V.isdir q c
      let below := (dirs.filter fun c => decide (T.get (q ++ [c]) = some .dir)).mapM fun c => osWalk V n (join top c)
      below.map fun l => (top, files) :: l.flatten

/-- CPython's `fnmatch.translate`: where the set of characters that begins before `p` ends.  An `!` and a `]` at the beginning do
not end it.  The text of the set and the rest; `none` if there is no end. -/
def splitSet (p : Str) : Option (Str × Str) :=
  let j := if p.head? = some '!' then 1 else 0
  let j := if p[j]? = some ']' then j + 1 else j
  match (p.drop j).dropWhile (· != ']') with
  | [] => none
  | _ :: rest => some (p.take j ++ (p.drop j).takeWhile (· != ']'), rest)

theorem splitSet_length {p stuff rest : Str} (h : splitSet p = some (stuff, rest)) : rest.length < p.length := by
  unfold splitSet at h
  simp only at h
  split at h
  · cases h
  · rename_i c r hd
    simp only [Option.some.injEq, Prod.mk.injEq] at h
    obtain ⟨-, rfl⟩ := h
    generalize (if p[if p.head? = some '!' then 1 else 0]? = some ']' then _ else _ : Nat) = j at hd
    have h1 := (List.dropWhile_suffix (l := p.drop j) (fun x => x != ']')).length_le
    rw [hd] at h1
    have h2 := (List.drop_suffix j p).length_le
    simp only [List.length_cons] at h1
    omega

/-- the characters of a set without `!`: `a-b` is a range -/
def inItems : Str → Char → Bool
  | a :: '-' :: b :: r, x => (decide (a ≤ x) && decide (x ≤ b)) || inItems r x
  | a :: r, x => x == a || inItems r x
  | [], _ => false

/-- the characters of a set.  Simplification: CPython drops empty ranges (`z-a`) from the text and would then take an `!` that
has come to the beginning for a negation. -/
def inSet : Str → Char → Bool
  | '!' :: r, x => !inItems r x
  | r, x => inItems r x

/-- CPython's `fnmatch.fnmatch` on POSIX -/
def fnmatch : Str → Str → Bool
  | [], s => s.isEmpty
  | '*' :: p, [] => fnmatch p []
  | '*' :: p, x :: s => fnmatch p (x :: s) || fnmatch ('*' :: p) s
  | _ :: _, [] => false
  | '?' :: p, _ :: s => fnmatch p s
  | '[' :: p, x :: s =>
    match _h : splitSet p with
    | some (stuff, rest) => inSet stuff x && fnmatch rest s
    | none => '[' == x && fnmatch p s
  | c :: p, x :: s => c == x && fnmatch p s
termination_by p s => (p.length + s.length)
decreasing_by
  all_goals simp_wf
  all_goals first | omega | (have := splitSet_length _h; omega)

/-- util.py:265-270 `recursive_glob` -/
def recursiveGlob (V : View T cwd) (lim : Nat) (treeroot pattern : Str) : Option (List Str) :=
  (osWalk V lim treeroot).map fun w => w.flatMap fun e => (e.2.filter (fnmatch pattern)).map (join e.1)

/-- util.py:215-237 `find_recursive`; `a in b` for strings is "is a substring" -/
def findRecursive (V : View T cwd) (lim : Nat) (root pattern : Str) (hide : Option Str) : Option (List Str) :=
  (osWalk V lim root).map fun w =>
    match hide with
    | none => w.flatMap fun e => (e.2.filter fun f => decide (pattern <:+: f)).map (join e.1)
    | some h => w.flatMap fun e =>
        if h <:+: e.1 then [] else (e.2.filter fun f => decide (pattern <:+: f)).map (join e.1)

/-! ### specification -/

/-- the path of the place reached from `top` through the names `ds` -/
def below (top : Str) (ds : List Str) : Str := ds.foldl join top

/-- in the directory `q ++ ds` there is an `f` that is no directory and no link to one -/
structure FileIn (T : Tree) (q ds : List Str) (f : Str) : Prop where
  there : T.get (q ++ ds ++ [f]) ≠ none
  nodir : T.get (q ++ ds ++ [f]) ≠ some .dir
  nolink : ∀ t m, T.get (q ++ ds ++ [f]) = some (.link t) → Walk T (start (q ++ ds) t) (comps t) m → T.get m ≠ some .dir

/-- the path `p` leads to the directory `q` -/
def Opens (T : Tree) (cwd : List Str) (p : Str) (q : List Str) : Prop :=
  p ≠ [] ∧ Walk T (start cwd p) (comps p) q ∧ T.get q = some .dir

/-! ### paths -/

theorem plain_head {c : Str} (h : Plain c) : c.head? ≠ some '/' := by
  intro e
  obtain ⟨x, r, rfl⟩ := List.exists_cons_of_ne_nil h.ne
  simp only [List.head?_cons, Option.some.injEq] at e
  exact h.noslash (by simp [e])

theorem join_ne {p c : Str} (h : Plain c) : join p c ≠ [] := by
  unfold join
  rw [if_neg (plain_head h)]
  split
  · simp [h.ne]
  · simp

theorem start_join {p c : Str} (hp : p ≠ []) (h : Plain c) : start cwd (join p c) = start cwd p := by
  have : isabs (join p c) = isabs p := by
    unfold join isabs
    rw [if_neg (plain_head h)]
    obtain ⟨x, r, rfl⟩ := List.exists_cons_of_ne_nil hp
    split <;> simp
  unfold start
  rw [this]

/-- one more name -/
theorem walk_joinG {d q m' : List Str} {p c : Str} (hp : p ≠ []) (hc : Plain c) (h : Walk T d (comps p) q)
    (hstep : Walk T q [c] m') : Walk T d (comps (join p c)) m' := by
  unfold join
  rw [if_neg (plain_head hc)]
  split
  · rename_i hl
    have hl := hl.resolve_left hp
    obtain ⟨p', rfl⟩ : ∃ p', p = p' ++ ['/'] := List.getLast?_eq_some_iff.1 hl
    have e1 : comps (p' ++ ['/']) = comps p' ++ [[]] := comps_append p' []
    have e2 : comps (p' ++ ['/'] ++ c) = comps p' ++ [c] := by
      rw [List.append_assoc]
      show comps (p' ++ '/' :: c) = _
      rw [comps_append, comps_noslash hc.noslash]
    rw [e1] at h
    rw [e2]
    obtain ⟨m, h1, h2⟩ := walk_split h
    have : m = q := by
      cases h2 with
      | skip _ _ h3 => cases h3; rfl
      | step hg _ => exact absurd rfl (T.names _ _ (There.ne hg)).ne
      | link hg _ _ => exact absurd rfl (T.names _ _ (by rw [hg]; simp)).ne
    subst this
    exact walk_append h1 hstep
  · rw [comps_append, comps_noslash hc.noslash]
    exact walk_append h hstep

/-- entering a directory -/
theorem walk_join {d q : List Str} {p c : Str} (hp : p ≠ []) (hc : Plain c) (h : Walk T d (comps p) q)
    (hq : T.get (q ++ [c]) = some .dir ∨ T.get (q ++ [c]) = some .file) : Walk T d (comps (join p c)) (q ++ [c]) :=
  walk_joinG hp hc h (.step hq.symm .done)

theorem walk_det {d rest q q' : List Str} (h : Walk T d rest q) (h' : Walk T d rest q') : q = q' :=
  real_det (walk_real h) (walk_real h')

theorem View.opendir_join (V : View T cwd) {p c : Str} {q : List Str} (h : V.opendir p = some q)
    (hc : T.get (q ++ [c]) = some .dir) : V.opendir (join p c) = some (q ++ [c]) := by
  rw [V.opendir_iff] at h ⊢
  have hp : Plain c := T.names _ _ (by rw [hc]; simp)
  refine ⟨join_ne hp, ?_, hc⟩
  rw [start_join h.1 hp]
  exact walk_join h.1 hp h.2.1 (Or.inl hc)

theorem View.file_iff (V : View T cwd) (q ds : List Str) (f : Str) :
    FileIn T q ds f ↔ f ∈ V.ls (q ++ ds) ∧ V.isdir (q ++ ds) f = false := by
  rw [V.mem_ls, ← Bool.not_eq_true, V.isdir_iff]
  constructor
  · intro h
    refine ⟨h.there, ?_⟩
    rintro (h1 | ⟨t, m, h1, h2, h3⟩)
    · exact h.nodir h1
    · exact h.nolink t m h1 h2 h3
  · rintro ⟨h1, h2⟩
    exact ⟨h1, fun e => h2 (Or.inl e), fun t m e hw hd => h2 (Or.inr ⟨t, m, e, hw, hd⟩)⟩

/-! ### os.walk -/

theorem mapM_some {α β : Type} {f : α → Option β} : ∀ {l : List α} {r : List β}, l.mapM f = some r →
    List.Forall₂ (fun a b => f a = some b) l r := by
  intro l
  induction l with
  | nil => intro r h; simp only [List.mapM_nil, Option.pure_def, Option.some.injEq] at h; subst h; exact .nil
  | cons a l ih =>
    intro r h
    simp only [List.mapM_cons, Option.pure_def, Option.bind_eq_bind, Option.bind_eq_some_iff, Option.some.injEq] at h
    obtain ⟨b, hb, bs, hbs, rfl⟩ := h
    exact .cons hb (ih hbs)

theorem mapM_returns {α β : Type} {f : α → Option β} : ∀ {l : List α}, (∀ a ∈ l, ∃ b, f a = some b) →
    ∃ r, l.mapM f = some r := by
  intro l
  induction l with
  | nil => intro _; exact ⟨[], rfl⟩
  | cons a l ih =>
    intro h
    obtain ⟨b, hb⟩ := h a (by simp)
    obtain ⟨r, hr⟩ := ih fun x hx => h x (by simp [hx])
    exact ⟨b :: r, by simp [hb, hr]⟩

theorem forall₂_mem {α β : Type} {R : α → β → Prop} {l : List α} {r : List β} (h : List.Forall₂ R l r) :
    (∀ b ∈ r, ∃ a ∈ l, R a b) ∧ ∀ a ∈ l, ∃ b ∈ r, R a b := by
  induction h with
  | nil => simp
  | cons hab _ ih =>
    constructor
    · intro b hb
      rcases List.mem_cons.1 hb with rfl | hb
      · exact ⟨_, by simp, hab⟩
      · obtain ⟨a, ha, h⟩ := ih.1 b hb; exact ⟨a, by simp [ha], h⟩
    · intro a ha
      rcases List.mem_cons.1 ha with rfl | ha
      · exact ⟨_, by simp, hab⟩
      · obtain ⟨b, hb, h⟩ := ih.2 a ha; exact ⟨b, by simp [hb], h⟩

/-- the directories visited -/
theorem osWalk_mem (V : View T cwd) : ∀ (n : Nat) (top : Str) (q : List Str) (out : List (Str × List Str)),
    osWalk V n top = some out → V.opendir top = some q → ∀ e, e ∈ out ↔
      ∃ ds, T.get (q ++ ds) = some .dir ∧ e = (below top ds, (V.ls (q ++ ds)).filter fun c => !V.isdir (q ++ ds) c) := by
  intro n
  induction n with
  | zero => intro top q out h; cases h
  | succ n ih =>
    intro top q out h hq e
    rw [osWalk, hq] at h
    simp only [Option.map_eq_some_iff] at h
    obtain ⟨l, hl, rfl⟩ := h
    have hf := forall₂_mem (mapM_some hl)
    have hdir : ∀ c, c ∈ ((V.ls q).filter fun c => V.isdir q c).filter (fun c => decide (T.get (q ++ [c]) = some .dir)) ↔
        T.get (q ++ [c]) = some .dir := by
      intro c
      simp only [List.mem_filter, decide_eq_true_eq, V.mem_ls, V.isdir_iff]
      constructor
      · exact fun h => h.2
      · exact fun h => ⟨⟨by rw [h]; simp, Or.inl h⟩, h⟩
    constructor
    · intro he
      rcases List.mem_cons.1 he with rfl | he
      · refine ⟨[], ?_, by simp [below]⟩
        rw [List.append_nil]
        exact ((V.opendir_iff _ _).1 hq).2.2
      · obtain ⟨b, hb, he⟩ := List.mem_flatten.1 he
        obtain ⟨c, hc, hw⟩ := hf.1 b hb
        have hc := (hdir c).1 hc
        obtain ⟨ds, h1, h2⟩ := (ih _ _ _ hw (V.opendir_join hq hc) e).1 he
        refine ⟨c :: ds, by simpa using h1, ?_⟩
        rw [h2]
        simp [below]
    · rintro ⟨ds, h1, h2⟩
      cases ds with
      | nil => rw [h2]; simp [below]
      | cons c ds =>
        have hc : T.get (q ++ [c]) = some .dir := by
          by_cases hd : ds = []
          · subst hd; exact h1
          · exact get_prefix (q ++ [c]) ds hd (by
              rw [List.append_assoc]; show T.get (q ++ c :: ds) ≠ none; rw [h1]; simp)
        obtain ⟨b, hb, hw⟩ := hf.2 c ((hdir c).2 hc)
        refine List.mem_cons.2 (Or.inr (List.mem_flatten.2 ⟨b, hb, ?_⟩))
        refine (ih _ _ _ hw (V.opendir_join hq hc) e).2 ⟨ds, by simpa using h1, ?_⟩
        rw [h2]
        simp [below]

/-- with enough recursion depth the walk returns -/
theorem osWalk_returns (V : View T cwd) {N : Nat} (hN : ∀ q, T.get q ≠ none → q.length ≤ N) :
    ∀ (n : Nat) (top : Str), (∀ q, V.opendir top = some q → N < q.length + n) → 0 < n → ∃ out, osWalk V n top = some out := by
  intro n
  induction n with
  | zero => intro top _ h; omega
  | succ n ih =>
    intro top h _
    rw [osWalk]
    cases hq : V.opendir top with
    | none => exact ⟨[], rfl⟩
    | some q =>
      obtain ⟨r, hr⟩ := mapM_returns (f := fun c => osWalk V n (join top c))
        (l := ((V.ls q).filter fun c => V.isdir q c).filter (fun c => decide (T.get (q ++ [c]) = some .dir))) (by
          intro c hc
          have hc : T.get (q ++ [c]) = some .dir := by simpa using (List.mem_filter.1 hc).2
          have h1 := h q hq
          have h2 := hN (q ++ [c]) (by rw [hc]; simp)
          rw [List.length_append, List.length_singleton] at h2
          refine ih _ ?_ (by omega)
          intro q' hq'
          rw [V.opendir_join hq hc] at hq'
          cases hq'
          rw [List.length_append, List.length_singleton]
          omega)
      simp only [hr, Option.map_some]
      exact ⟨_, rfl⟩

/-! ### different places have different paths -/

theorem join_plain_reduced {p c : Str} (hp : p ≠ []) (hc : Plain c) : reduced (join p c) = reduced p ++ [c] := by
  rw [reduced_join (plain_head hc) hp (by
    rw [comps_noslash hc.noslash]; simpa using hc.dotdot), comps_noslash hc.noslash]
  simp [hc.ne, hc.dot]

theorem below_ne {ds : List Str} {top : Str} (ht : top ≠ []) (hd : ∀ d ∈ ds, Plain d) : below top ds ≠ [] := by
  induction ds generalizing top with
  | nil => exact ht
  | cons d ds ih => exact ih (join_ne (hd d (by simp))) fun x hx => hd x (by simp [hx])

theorem below_reduced {ds : List Str} {top : Str} (ht : top ≠ []) (hd : ∀ d ∈ ds, Plain d) :
    reduced (below top ds) = reduced top ++ ds := by
  induction ds generalizing top with
  | nil => simp [below]
  | cons d ds ih =>
    have hp := hd d (by simp)
    have := ih (top := join top d) (join_ne hp) fun x hx => hd x (by simp [hx])
    unfold below at this ⊢
    rw [List.foldl_cons, this, join_plain_reduced ht hp]
    simp

theorem below_snoc (top : Str) (ds : List Str) (f : Str) : join (below top ds) f = below top (ds ++ [f]) := by
  simp [below]

theorem FileIn.plain {q ds : List Str} {f : Str} (h : FileIn T q ds f) : ∀ d ∈ ds ++ [f], Plain d := by
  intro d hd
  refine get_names (q ++ ds ++ [f]) h.there d ?_
  rw [List.append_assoc]
  exact List.mem_append.2 (Or.inr hd)

theorem osWalk_nodup (V : View T cwd) : ∀ (n : Nat) (top : Str) (q : List Str) (out : List (Str × List Str)),
    osWalk V n top = some out → V.opendir top = some q → (out.map (·.1)).Nodup := by
  intro n
  induction n with
  | zero => intro top q out h; cases h
  | succ n ih =>
    intro top q out h hq
    have ht : top ≠ [] := ((V.opendir_iff _ _).1 hq).1
    rw [osWalk, hq] at h
    simp only [Option.map_eq_some_iff] at h
    obtain ⟨l, hl, rfl⟩ := h
    replace hl := mapM_some hl
    have hin : ∀ c (b : List (Str × List Str)), T.get (q ++ [c]) = some .dir → osWalk V n (join top c) = some b →
        ∀ x ∈ b.map (·.1), ∃ ds, reduced x = reduced top ++ c :: ds := by
      intro c b hc hw x hx
      obtain ⟨e, he, rfl⟩ := List.mem_map.1 hx
      obtain ⟨ds, h1, h2⟩ := (osWalk_mem V n _ _ b hw (V.opendir_join hq hc) e).1 he
      have hp := get_names _ (by rw [h1]; simp)
      refine ⟨ds, ?_⟩
      rw [h2]
      show reduced (below (join top c) ds) = _
      rw [below_reduced (join_ne (hp c (by simp))) (fun d hd => hp d (by simp [hd])), join_plain_reduced ht (hp c (by simp))]
      simp
    have hnd : (((V.ls q).filter fun c => V.isdir q c).filter (fun c => decide (T.get (q ++ [c]) = some .dir))).Nodup :=
      ((V.nodup q).filter _).filter _
    have hdir : ∀ c ∈ ((V.ls q).filter fun c => V.isdir q c).filter (fun c => decide (T.get (q ++ [c]) = some .dir)),
        T.get (q ++ [c]) = some .dir := fun c hc => by simpa using (List.mem_filter.1 hc).2
    generalize ((V.ls q).filter fun c => V.isdir q c).filter (fun c => decide (T.get (q ++ [c]) = some .dir)) = cs at *
    rw [List.map_cons, List.nodup_cons]
    have hall : ∀ x ∈ l.flatten.map (·.1), ∃ c ∈ cs, ∃ ds, reduced x = reduced top ++ c :: ds := by
      intro x hx
      obtain ⟨e, he, rfl⟩ := List.mem_map.1 hx
      obtain ⟨b, hb, he⟩ := List.mem_flatten.1 he
      obtain ⟨c, hc, hw⟩ := (forall₂_mem hl).1 b hb
      obtain ⟨ds, hds⟩ := hin c b (hdir c hc) hw _ (List.mem_map_of_mem he)
      exact ⟨c, hc, ds, hds⟩
    constructor
    · intro hx
      obtain ⟨c, _, ds, h⟩ := hall _ hx
      have := congrArg List.length h
      simp at this
    · clear hall
      induction hl with
      | nil => simp
      | @cons c b cs l hw hl ih2 =>
        rw [List.flatten_cons, List.map_append, List.nodup_append]
        rw [List.nodup_cons] at hnd
        refine ⟨ih _ _ _ hw (V.opendir_join hq (hdir c (by simp))), ih2 hnd.2 fun x hx => hdir x (by simp [hx]), ?_⟩
        intro x hx y hy e
        subst e
        obtain ⟨ds, h1⟩ := hin c b (hdir c (by simp)) hw x hx
        obtain ⟨e, he, rfl⟩ := List.mem_map.1 hy
        obtain ⟨b', hb', he⟩ := List.mem_flatten.1 he
        obtain ⟨c', hc', hw'⟩ := (forall₂_mem hl).1 b' hb'
        obtain ⟨ds', h2⟩ := hin c' b' (hdir c' (by simp [hc'])) hw' _ (List.mem_map_of_mem he)
        rw [h1] at h2
        have := List.append_cancel_left h2
        simp only [List.cons.injEq] at this
        rw [this.1] at hnd
        exact hnd.1 hc'

/-! ### what is listed -/

/-- both searches, for a condition on the directory and one on the name -/
theorem search_mem (V : View T cwd) {n : Nat} {top : Str} {q : List Str} {w : List (Str × List Str)}
    (h : osWalk V n top = some w) (hq : V.opendir top = some q) (inD inF : Str → Bool) :
    (∀ p, p ∈ w.flatMap (fun e => if inD e.1 then (e.2.filter inF).map (join e.1) else []) ↔
      ∃ ds f, FileIn T q ds f ∧ inD (below top ds) = true ∧ inF f = true ∧ p = below top (ds ++ [f])) ∧
    (w.flatMap (fun e => if inD e.1 then (e.2.filter inF).map (join e.1) else [])).Nodup := by
  have hm := osWalk_mem V n top q w h hq
  have ht : top ≠ [] := ((V.opendir_iff _ _).1 hq).1
  constructor
  · intro p
    rw [List.mem_flatMap]
    constructor
    · rintro ⟨e, he, hp⟩
      obtain ⟨ds, h1, rfl⟩ := (hm e).1 he
      split at hp
      · rename_i hi
        obtain ⟨f, hf, rfl⟩ := List.mem_map.1 hp
        obtain ⟨hf1, hf2⟩ := List.mem_filter.1 hf
        obtain ⟨hf1, hf3⟩ := List.mem_filter.1 hf1
        exact ⟨ds, f, (V.file_iff _ _ _).2 ⟨hf1, by simpa using hf3⟩, hi, hf2, by rw [below_snoc]⟩
      · cases hp
    · rintro ⟨ds, f, h1, h2, h3, rfl⟩
      obtain ⟨h4, h5⟩ := (V.file_iff _ _ _).1 h1
      refine ⟨_, (hm _).2 ⟨ds, T.parents _ _ h1.there, rfl⟩, ?_⟩
      simp only [h2, if_true]
      refine List.mem_map.2 ⟨f, ?_, below_snoc _ _ _⟩
      simp [List.mem_filter, h4, h5, h3]
  · have hnd := osWalk_nodup V n top q w h hq
    have hfiles : ∀ e ∈ w, ∃ ds, T.get (q ++ ds) = some .dir ∧ e.1 = below top ds ∧ e.2.Nodup ∧
        ∀ f ∈ e.2, Plain f := by
      intro e he
      obtain ⟨ds, h1, rfl⟩ := (hm e).1 he
      exact ⟨ds, h1, rfl, (V.nodup _).filter _, fun f hf =>
        T.names _ _ ((V.mem_ls _ _).1 (List.mem_filter.1 hf).1)⟩
    clear hm
    have hplain : ∀ ds, T.get (q ++ ds) = some .dir → ∀ d ∈ ds, Plain d := fun ds h1 d hd =>
      get_names (q ++ ds) (by rw [h1]; simp) d (by simp [hd])
    have hinj : ∀ e ∈ w, ∀ f ∈ e.2, reduced (join e.1 f) = reduced e.1 ++ [f] := by
      intro e he f hf
      obtain ⟨ds, h1, h2, h3, h4⟩ := hfiles e he
      exact join_plain_reduced (by rw [h2]; exact below_ne ht (hplain ds h1)) (h4 f hf)
    have hred : ∀ e ∈ w, ∀ e' ∈ w, reduced e.1 = reduced e'.1 → e.1 = e'.1 := by
      intro e he e' he' hr
      obtain ⟨ds, h1, h2, _⟩ := hfiles e he
      obtain ⟨ds', h1', h2', _⟩ := hfiles e' he'
      rw [h2, h2', below_reduced ht (hplain _ h1), below_reduced ht (hplain _ h1')] at hr
      rw [h2, h2', List.append_cancel_left hr]
    have hf2 : ∀ e ∈ w, e.2.Nodup := fun e he => (hfiles e he).choose_spec.2.2.1
    clear hfiles h
    induction w with
    | nil => simp
    | cons e w ih =>
      rw [List.flatMap_cons, List.nodup_append]
      rw [List.map_cons, List.nodup_cons] at hnd
      refine ⟨?_, ih hnd.2 (fun x hx => hinj x (by simp [hx])) (fun x hx y hy => hred x (by simp [hx]) y (by simp [hy]))
        (fun x hx => hf2 x (by simp [hx])), ?_⟩
      · split
        · refine List.Nodup.map_on ?_ ((hf2 e (by simp)).filter _)
          intro f hf f' hf' he
          have h1 := hinj e (by simp) f (List.mem_filter.1 hf).1
          have h2 := hinj e (by simp) f' (List.mem_filter.1 hf').1
          rw [he, h2] at h1
          simpa using (List.append_cancel_left h1).symm
        · exact List.nodup_nil
      · intro x hx y hy hxy
        subst hxy
        obtain ⟨e', he', hy⟩ := List.mem_flatMap.1 hy
        split at hx
        · split at hy
          · obtain ⟨f, hf, rfl⟩ := List.mem_map.1 hx
            obtain ⟨f', hf', he⟩ := List.mem_map.1 hy
            have h1 := hinj e (by simp) f (List.mem_filter.1 hf).1
            have h2 := hinj e' (by simp [he']) f' (List.mem_filter.1 hf').1
            rw [he, h1] at h2
            have h3 := hred e (by simp) e' (by simp [he']) (List.append_inj_left' h2 rfl)
            exact hnd.1 (by rw [h3]; exact List.mem_map_of_mem he')
          · cases hy
        · cases hx

/-! ### C105 -/

/-- After a `[`, the text `p` goes on with the characters `body` of a set, negated if `neg`, a `]` and `rest`.  Only the first of
the characters may be a `]`. -/
structure IsSet (p : Str) (neg : Bool) (body rest : Str) : Prop where
  text : p = (if neg then ['!'] else []) ++ body ++ ']' :: rest
  ne : body ≠ []
  close : ']' ∉ body.tail
  bang : neg = false → body.head? ≠ some '!'

/-- the characters that the text of a set stands for: ranges `a-b` and single characters -/
inductive InBody : Str → Char → Prop where
  | range {a b r x} : a ≤ x → x ≤ b → InBody (a :: '-' :: b :: r) x
  | afterRange {a b r x} : InBody r x → InBody (a :: '-' :: b :: r) x
  | char {a r} : (∀ b r', r ≠ '-' :: b :: r') → InBody (a :: r) a
  | afterChar {a r x} : (∀ b r', r ≠ '-' :: b :: r') → InBody r x → InBody (a :: r) x

/-- the meaning of a pattern: `*` stands for any text, `?` for one character, `[..]` for one of the characters of the set,
`[!..]` for one that is not in the set; a `[` that begins no set and all other characters for themselves -/
inductive Matches : Str → Str → Prop where
  | done : Matches [] []
  | star {p s} (t : Str) : Matches p s → Matches ('*' :: p) (t ++ s)
  | any {p s} (x : Char) : Matches p s → Matches ('?' :: p) (x :: s)
  | set {p s body rest x} : IsSet p false body rest → InBody body x → Matches rest s → Matches ('[' :: p) (x :: s)
  | notSet {p s body rest x} : IsSet p true body rest → ¬ InBody body x → Matches rest s → Matches ('[' :: p) (x :: s)
  | bracket {p s} : (∀ neg body rest, ¬ IsSet p neg body rest) → Matches p s → Matches ('[' :: p) ('[' :: s)
  | char {p s c} : c ≠ '*' → c ≠ '?' → c ≠ '[' → Matches p s → Matches (c :: p) (c :: s)

theorem inItems_iff (r : Str) (x : Char) : inItems r x = true ↔ InBody r x := by
  fun_induction inItems r x with
  | case1 a b r x ih =>
    simp only [Bool.or_eq_true, Bool.and_eq_true, decide_eq_true_eq, ih]
    constructor
    · rintro (⟨h1, h2⟩ | h)
      · exact .range h1 h2
      · exact .afterRange h
    · intro h
      cases h with
      | range h1 h2 => exact Or.inl ⟨h1, h2⟩
      | afterRange h => exact Or.inr h
      | char h => exact absurd rfl (h _ _)
      | afterChar h _ => exact absurd rfl (h _ _)
  | case2 a r x hn ih =>
    simp only [Bool.or_eq_true, beq_iff_eq, ih]
    constructor
    · rintro (rfl | h)
      · exact .char (fun b r' e => hn b r' e)
      · exact .afterChar (fun b r' e => hn b r' e) h
    · intro h
      cases h with
      | range h1 h2 => exact absurd rfl (hn _ _)
      | afterRange h => exact absurd rfl (hn _ _)
      | char h => exact Or.inl rfl
      | afterChar _ h => exact Or.inr h
  | case3 x =>
    constructor
    · intro h; cases h
    · intro h; cases h

/-- the end of a set is the first `]` after its first character -/
theorem close_split {r rest t : Str} (h : ']' ∉ t) (e : r = t ++ ']' :: rest) :
    r.dropWhile (· != ']') = ']' :: rest ∧ r.takeWhile (· != ']') = t := by
  subst e
  have ha : ∀ a ∈ t, (a != ']') = true := fun a ha => by
    rw [bne_iff_ne]; rintro rfl; exact h ha
  constructor
  · rw [List.dropWhile_append_of_pos ha]; rfl
  · rw [List.takeWhile_append_of_pos ha]; simp

theorem close_of {r rest : Str} {c : Char} (h : r.dropWhile (· != ']') = c :: rest) :
    r = r.takeWhile (· != ']') ++ ']' :: rest ∧ ']' ∉ r.takeWhile (· != ']') := by
  have hc : c = ']' := by
    have := List.head_dropWhile_not (p := fun x : Char => x != ']') (l := r) (by rw [h]; simp)
    simp only [h, List.head_cons] at this
    simpa using this
  subst hc
  refine ⟨?_, fun hm => ?_⟩
  · conv_lhs => rw [← List.takeWhile_append_dropWhile (p := fun x : Char => x != ']') (l := r), h]
  · have := List.mem_takeWhile_imp hm
    simp at this

/-- the text up to the first `]` -/
def upTo (q : Str) : Option (Str × Str) :=
  match q.dropWhile (· != ']') with
  | [] => none
  | _ :: rest => some (q.takeWhile (· != ']'), rest)

theorem upTo_iff {q t rest : Str} : upTo q = some (t, rest) ↔ q = t ++ ']' :: rest ∧ ']' ∉ t := by
  unfold upTo
  constructor
  · intro h
    split at h
    · cases h
    · rename_i c r hd
      simp only [Option.some.injEq, Prod.mk.injEq] at h
      obtain ⟨rfl, rfl⟩ := h
      exact close_of hd
  · rintro ⟨h1, h2⟩
    obtain ⟨h3, h4⟩ := close_split h2 h1
    rw [h3, h4]

theorem splitSet_cons {c : Char} {q : Str} (hc : c ≠ '!') :
    splitSet (c :: q) = (upTo q).map fun x => (c :: x.1, x.2) := by
  unfold splitSet upTo
  simp only [List.head?_cons, Option.some.injEq, hc, if_false, List.getElem?_cons_zero]
  by_cases h : c = ']'
  · subst h
    simp only [if_true, List.drop_succ_cons, List.drop_zero, List.take_succ_cons, List.take_zero, Nat.zero_add]
    cases q.dropWhile (· != ']') <;> rfl
  · have hb : (c != ']') = true := bne_iff_ne.2 h
    simp only [h, if_false, List.drop_zero, List.take_zero, List.nil_append]
    rw [List.dropWhile_cons_of_pos (p := fun x => x != ']') hb, List.takeWhile_cons_of_pos (p := fun x => x != ']') hb]
    cases q.dropWhile (· != ']') <;> rfl

theorem splitSet_bang {c : Char} {q : Str} :
    splitSet ('!' :: c :: q) = (upTo q).map fun x => ('!' :: c :: x.1, x.2) := by
  unfold splitSet upTo
  simp only [List.head?_cons, if_true, List.getElem?_cons_succ, List.getElem?_cons_zero, Option.some.injEq]
  by_cases h : c = ']'
  · subst h
    simp only [if_true, List.drop_succ_cons, List.drop_zero, List.take_succ_cons, List.take_zero]
    cases q.dropWhile (· != ']') <;> rfl
  · have hb : (c != ']') = true := bne_iff_ne.2 h
    simp only [h, if_false, List.drop_succ_cons, List.drop_zero, List.take_succ_cons, List.take_zero]
    rw [List.dropWhile_cons_of_pos (p := fun x => x != ']') hb, List.takeWhile_cons_of_pos (p := fun x => x != ']') hb]
    cases q.dropWhile (· != ']') <;> rfl

theorem splitSet_iff (p stuff rest : Str) : splitSet p = some (stuff, rest) ↔
    ∃ neg body, IsSet p neg body rest ∧ stuff = (if neg then ['!'] else []) ++ body := by
  have hbody : ∀ {neg body} {c : Char} {q : Str}, IsSet p neg body rest → p = (if neg then ['!'] else []) ++ c :: q →
      ∃ t, body = c :: t ∧ upTo q = some (t, rest) := by
    intro neg body c q h e
    have h1 := h.text.symm.trans e
    rw [List.append_assoc] at h1
    replace h1 := List.append_cancel_left h1
    obtain ⟨d, t, rfl⟩ := List.exists_cons_of_ne_nil h.ne
    simp only [List.cons_append, List.cons.injEq] at h1
    obtain ⟨rfl, h2⟩ := h1
    exact ⟨t, rfl, upTo_iff.2 ⟨h2.symm, h.close⟩⟩
  have hshort : (p = [] ∨ p = ['!']) → ¬ ∃ neg body, IsSet p neg body rest ∧ stuff = (if neg then ['!'] else []) ++ body := by
    rintro hp ⟨neg, body, h, -⟩
    have := h.text
    obtain ⟨d, t, rfl⟩ := List.exists_cons_of_ne_nil h.ne
    rcases hp with rfl | rfl <;> cases neg <;> simp at this
  rcases p with _ | ⟨c, q⟩
  · exact iff_of_false (by intro h; cases h) (hshort (Or.inl rfl))
  by_cases hc : c = '!'
  · subst hc
    rcases q with _ | ⟨c, q⟩
    · exact iff_of_false (by intro h; cases h) (hshort (Or.inr rfl))
    rw [splitSet_bang]
    constructor
    · intro h
      simp only [Option.map_eq_some_iff, Prod.exists, Prod.mk.injEq] at h
      obtain ⟨t, r, h, rfl, rfl⟩ := h
      obtain ⟨rfl, h2⟩ := upTo_iff.1 h
      exact ⟨true, c :: t, ⟨by simp, by simp, h2, by simp⟩, by simp⟩
    · rintro ⟨neg, body, h, rfl⟩
      cases neg with
      | true =>
        obtain ⟨t, rfl, ht⟩ := hbody h rfl
        rw [ht]; simp
      | false =>
        obtain ⟨t, rfl, ht⟩ := hbody (c := '!') (q := c :: q) h rfl
        exact absurd rfl (h.bang rfl)
  · rw [splitSet_cons hc]
    constructor
    · intro h
      simp only [Option.map_eq_some_iff, Prod.exists, Prod.mk.injEq] at h
      obtain ⟨t, r, h, rfl, rfl⟩ := h
      obtain ⟨rfl, h2⟩ := upTo_iff.1 h
      exact ⟨false, c :: t, ⟨by simp, by simp, h2, by simpa using hc⟩, by simp⟩
    · rintro ⟨neg, body, h, rfl⟩
      cases neg with
      | true =>
        have := h.text
        simp only [if_true, List.cons_append, List.nil_append, List.cons.injEq] at this
        exact absurd this.1 hc
      | false =>
        obtain ⟨t, rfl, ht⟩ := hbody h rfl
        rw [ht]; simp

theorem inSet_iff {p body rest : Str} {neg : Bool} (h : IsSet p neg body rest) (x : Char) :
    inSet ((if neg then ['!'] else []) ++ body) x = true ↔ (InBody body x ↔ neg = false) := by
  cases neg with
  | true =>
    simp only [if_true, List.cons_append, List.nil_append, inSet, Bool.not_eq_true', Bool.true_eq_false, iff_false,
      ← inItems_iff, Bool.not_eq_true]
  | false =>
    obtain ⟨c, t, rfl⟩ := List.exists_cons_of_ne_nil h.ne
    have hc : c ≠ '!' := by have := h.bang rfl; simpa using this
    simp only [Bool.false_eq_true, if_false, List.nil_append, iff_true]
    rw [← inItems_iff]
    unfold inSet
    split
    · rename_i e; cases e; exact absurd rfl hc
    · rfl

theorem fnmatch_iff (p s : Str) : fnmatch p s = true ↔ Matches p s := by
  fun_induction fnmatch p s with
  | case1 s =>
    rw [List.isEmpty_iff]
    constructor
    · rintro rfl; exact .done
    · intro h; cases h; rfl
  | case2 p ih =>
    rw [ih]
    constructor
    · intro h; exact .star [] h
    · intro h
      generalize hs : ([] : Str) = s at h
      cases h with
      | star t h => obtain ⟨rfl, rfl⟩ := List.append_eq_nil_iff.1 hs.symm; exact h
      | char h1 _ _ _ => exact absurd rfl h1
  | case3 p x s ih1 ih2 =>
    rw [Bool.or_eq_true, ih1, ih2]
    constructor
    · rintro (h | h)
      · exact .star [] h
      · generalize hp : '*' :: p = p' at h
        cases h with
        | done => cases hp
        | star t h => cases hp; exact .star (x :: t) h
        | any _ _ => cases hp
        | set _ _ _ => cases hp
        | notSet _ _ _ => cases hp
        | bracket _ _ => cases hp
        | char h1 _ _ _ => cases hp; exact absurd rfl h1
    · intro h
      generalize hs : x :: s = s' at h
      cases h with
      | star t h =>
        cases t with
        | nil => left; exact h
        | cons y t => cases hs; right; exact .star t h
      | char h1 _ _ _ => exact absurd rfl h1
  | case4 c p h =>
    constructor
    · intro h; cases h
    · intro h'
      generalize hs : ([] : Str) = s at h'
      cases h' with
      | star t h' => exact (h rfl).elim
      | any x h => cases hs
      | set _ _ _ => cases hs
      | notSet _ _ _ => cases hs
      | bracket _ _ => cases hs
      | char _ _ _ _ => cases hs
  | case5 p x s ih =>
    rw [ih]
    constructor
    · exact .any x
    · intro h
      cases h with
      | any _ h => exact h
      | char _ h1 _ _ => exact absurd rfl h1
  | case6 p x s stuff rest hset ih =>
    obtain ⟨neg, body, hS, rfl⟩ := (splitSet_iff _ _ _).1 hset
    have huniq : ∀ {neg' body' rest'}, IsSet p neg' body' rest' → neg' = neg ∧ body' = body ∧ rest' = rest := by
      intro neg' body' rest' h'
      have h1 := (splitSet_iff p _ rest').2 ⟨neg', body', h', rfl⟩
      rw [hset] at h1
      simp only [Option.some.injEq, Prod.mk.injEq] at h1
      obtain ⟨h1, rfl⟩ := h1
      cases neg <;> cases neg'
      · exact ⟨rfl, by simpa using h1.symm, rfl⟩
      · simp only [Bool.false_eq_true, if_false, List.nil_append, if_true, List.cons_append] at h1
        exact absurd (by rw [h1]; rfl) (hS.bang rfl)
      · simp only [Bool.false_eq_true, if_false, List.nil_append, if_true, List.cons_append] at h1
        exact absurd (by rw [← h1]; rfl) (h'.bang rfl)
      · exact ⟨rfl, by simpa using h1.symm, rfl⟩
    rw [Bool.and_eq_true, ih, inSet_iff hS]
    constructor
    · rintro ⟨h1, h2⟩
      cases neg with
      | false => exact .set hS (h1.2 rfl) h2
      | true => exact .notSet hS (fun h => by cases h1.1 h) h2
    · intro h
      cases h with
      | set h1 h2 h3 => obtain ⟨rfl, rfl, rfl⟩ := huniq h1; exact ⟨⟨fun _ => rfl, fun _ => h2⟩, h3⟩
      | notSet h1 h2 h3 =>
        obtain ⟨rfl, rfl, rfl⟩ := huniq h1; exact ⟨⟨fun h => absurd h h2, fun h => (by cases h)⟩, h3⟩
      | bracket h _ => exact absurd hS (h _ _ _)
      | char _ _ h _ => exact absurd rfl h
  | case7 p x s hset ih =>
    have hno : ∀ neg body rest, ¬ IsSet p neg body rest := by
      intro neg body rest h
      rw [(splitSet_iff p _ rest).2 ⟨neg, body, h, rfl⟩] at hset
      cases hset
    rw [Bool.and_eq_true, beq_iff_eq, ih]
    constructor
    · rintro ⟨rfl, h⟩; exact .bracket hno h
    · intro h
      cases h with
      | set h _ _ => exact absurd h (hno _ _ _)
      | notSet h _ _ => exact absurd h (hno _ _ _)
      | bracket _ h => exact ⟨rfl, h⟩
      | char _ _ h _ => exact absurd rfl h
  | case8 c p x s h1 h2 h3 ih =>
    rw [Bool.and_eq_true, beq_iff_eq, ih]
    constructor
    · rintro ⟨rfl, h⟩
      exact .char (fun e => h1 e) (fun e => h2 e) (fun e => h3 e) h
    · intro h
      generalize hs : x :: s = s' at h
      cases h with
      | star t h => exact absurd rfl h1
      | any x h => exact absurd rfl h2
      | set _ _ _ => exact absurd rfl h3
      | notSet _ _ _ => exact absurd rfl h3
      | bracket _ _ => exact absurd rfl h3
      | char _ _ _ h => cases hs; exact ⟨rfl, h⟩

theorem matches_plain {e : Str} (he : '*' ∉ e ∧ '?' ∉ e ∧ '[' ∉ e) (f : Str) : Matches e f ↔ e = f := by
  induction e generalizing f with
  | nil =>
    constructor
    · intro h; cases h; rfl
    · rintro rfl; exact .done
  | cons c e ih =>
    simp only [List.mem_cons, not_or] at he
    constructor
    · intro h
      cases h with
      | star t h => exact absurd rfl he.1.1
      | any x h => exact absurd rfl he.2.1.1
      | set _ _ _ => exact absurd rfl he.2.2.1
      | notSet _ _ _ => exact absurd rfl he.2.2.1
      | bracket _ _ => exact absurd rfl he.2.2.1
      | char _ _ _ h => rw [(ih ⟨he.1.2, he.2.1.2, he.2.2.2⟩ _).1 h]
    · rintro rfl
      exact .char (Ne.symm he.1.1) (Ne.symm he.2.1.1) (Ne.symm he.2.2.1) ((ih ⟨he.1.2, he.2.1.2, he.2.2.2⟩ _).2 rfl)

/-- `*.h` matches the names that end with `.h` -/
theorem matches_suffix {e : Str} (he : '*' ∉ e ∧ '?' ∉ e ∧ '[' ∉ e) (f : Str) : Matches ('*' :: e) f ↔ e <:+ f := by
  constructor
  · intro h
    cases h with
    | star t h => rw [(matches_plain he _).1 h]; exact ⟨t, rfl⟩
    | char h _ _ _ => exact absurd rfl h
  · rintro ⟨t, rfl⟩
    exact .star t ((matches_plain he e).2 rfl)

/-- sets of characters -/
example : ['a', '5', 'x', '-', '.', ']'].map (fun c => fnmatch "[]a-z-]".toList [c]) = [true, false, true, true, false, true] ∧
    ['a', '5', 'x', '-', '.', ']'].map (fun c => fnmatch "[!]a-z-]".toList [c]) = [false, true, false, false, true, false] ∧
    fnmatch "*.[ch]".toList "a.h".toList = true ∧ fnmatch "*.[ch]pp".toList "a.bpp".toList = false ∧
    fnmatch "[!]".toList "[!]".toList = true ∧ fnmatch "a[b".toList "a[b".toList = true := by decide +kernel

theorem View.opens (V : View T cwd) {p : Str} {q : List Str} : V.opendir p = some q ↔ Opens T cwd p q := V.opendir_iff p q

/-- **C105**.  `recursive_glob(root, pattern)` lists exactly the paths of the files below the directory `root` (links to
directories are not followed) whose names match, each once; paths of different files differ.  It lists nothing if `root` is no
directory. -/
theorem C105_exact (V : View T cwd) {lim : Nat} {root pattern : Str} {out : List Str}
    (h : recursiveGlob V lim root pattern = some out) :
    (∀ q, Opens T cwd root q →
      (∀ p, p ∈ out ↔ ∃ ds f, FileIn T q ds f ∧ Matches pattern f ∧ p = below root (ds ++ [f])) ∧ out.Nodup ∧
      ∀ ds f ds' f', FileIn T q ds f → FileIn T q ds' f' → below root (ds ++ [f]) = below root (ds' ++ [f']) →
        ds = ds' ∧ f = f') ∧
    ((∀ q, ¬ Opens T cwd root q) → out = []) := by
  unfold recursiveGlob at h
  simp only [Option.map_eq_some_iff] at h
  obtain ⟨w, hw, rfl⟩ := h
  constructor
  · intro q hq
    have := search_mem V hw (V.opens.2 hq) (fun _ => true) (fnmatch pattern)
    simp only [if_true, true_and] at this
    refine ⟨fun p => ?_, this.2, fun ds f ds' f' h1 h2 he => ?_⟩
    · rw [this.1 p]
      simp only [fnmatch_iff]
    · have := congrArg reduced he
      rw [below_reduced hq.1 h1.plain, below_reduced hq.1 h2.plain] at this
      have := List.append_cancel_left this
      exact ⟨List.append_inj_left' this rfl, by simpa using List.append_inj_right' this rfl⟩
  · intro hno
    cases lim with
    | zero => cases hw
    | succ n =>
      have : V.opendir root = none := by
        cases hq : V.opendir root with
        | none => rfl
        | some q => exact absurd (V.opens.1 hq) (hno q)
      rw [osWalk, this] at hw
      cases hw
      rfl

/-- C105: the search returns if the tree is not deeper than the recursion allows. -/
theorem C105_returns (V : View T cwd) {lim N : Nat} (hN : ∀ q, T.get q ≠ none → q.length ≤ N) (hl : N < lim)
    (root pattern : Str) (hide : Option Str) :
    (∃ out, recursiveGlob V lim root pattern = some out) ∧ ∃ out, findRecursive V lim root pattern hide = some out := by
  obtain ⟨w, hw⟩ := osWalk_returns V hN lim root (by omega) (by omega)
  unfold recursiveGlob findRecursive
  rw [hw]
  exact ⟨⟨_, rfl⟩, ⟨_, rfl⟩⟩

/-! ### C106 -/

theorem infix_slash {h a b : Str} (hs : '/' ∉ h) (hi : h <:+: a ++ '/' :: b) : h <:+: a ∨ h <:+: b := by
  obtain ⟨s, t, e⟩ := hi
  rw [List.append_assoc] at e
  rcases List.append_eq_append_iff.1 e with ⟨u, rfl, hu⟩ | ⟨u, rfl, hu⟩
  · rcases List.append_eq_append_iff.1 hu with ⟨v, rfl, hv⟩ | ⟨v, rfl, hv⟩
    · left; exact ⟨s, v, by simp⟩
    · cases v with
      | nil => left; exact ⟨s, [], by simp⟩
      | cons x v =>
        simp only [List.cons_append, List.cons.injEq] at hv
        exact absurd (by simp [← hv.1]) hs
  · cases u with
    | nil =>
      simp only [List.nil_append] at hu
      cases h with
      | nil => left; exact ⟨a, [], by simp⟩
      | cons x h =>
        simp only [List.cons_append, List.cons.injEq] at hu
        exact absurd (by simp [← hu.1]) hs
    | cons x u =>
      simp only [List.cons_append, List.cons.injEq] at hu
      right
      exact ⟨u, t, by rw [hu.2]; simp⟩

/-- a text without slashes occurs in a path if it occurs in a name on it -/
theorem infix_below {h : Str} (hs : '/' ∉ h) {ds : List Str} {top : Str} (ht : top ≠ []) (hd : ∀ d ∈ ds, Plain d) :
    h <:+: below top ds ↔ h <:+: top ∨ ∃ d ∈ ds, h <:+: d := by
  induction ds generalizing top with
  | nil => simp [below]
  | cons d ds ih =>
    have hp := hd d (by simp)
    have hj : h <:+: join top d ↔ h <:+: top ∨ h <:+: d := by
      unfold join
      rw [if_neg (plain_head hp)]
      split
      · rename_i hl
        obtain ⟨p', rfl⟩ : ∃ p', top = p' ++ ['/'] := List.getLast?_eq_some_iff.1 (hl.resolve_left ht)
        constructor
        · intro hi
          rw [List.append_assoc] at hi
          rcases infix_slash hs hi with hi | hi
          · exact Or.inl (hi.trans ⟨[], ['/'], by simp⟩)
          · exact Or.inr hi
        · rintro (hi | hi)
          · exact hi.trans ⟨[], d, by simp⟩
          · exact hi.trans ⟨p' ++ ['/'], [], by simp⟩
      · constructor
        · exact infix_slash hs
        · rintro (hi | hi)
          · exact hi.trans ⟨[], '/' :: d, by simp⟩
          · exact hi.trans ⟨top ++ ['/'], [], by simp⟩
    have := ih (top := join top d) (join_ne hp) fun x hx => hd x (by simp [hx])
    unfold below at this ⊢
    rw [List.foldl_cons, this, hj]
    simp [or_assoc]

/-- **C106 is false**: if the text to hide occurs in the path of the directory that is searched, for example because the
project lies in a directory of that name, nothing is found at all. -/
theorem C106_violated (V : View T cwd) {lim : Nat} {root pattern h : Str} {out : List Str} (hh : h <:+: root)
    (hf : findRecursive V lim root pattern (some h) = some out) : out = [] := by
  unfold findRecursive at hf
  simp only [Option.map_eq_some_iff] at hf
  obtain ⟨w, hw, rfl⟩ := hf
  cases hq : V.opendir root with
  | none =>
    cases lim with
    | zero => cases hw
    | succ n => rw [osWalk, hq] at hw; cases hw; rfl
  | some q =>
    rw [List.flatMap_eq_nil_iff]
    intro e he
    obtain ⟨ds, h1, rfl⟩ := (osWalk_mem V lim root q w hw hq e).1 he
    have : h <:+: below root ds := by
      refine hh.trans ?_
      have hp : ∀ d ∈ ds, Plain d := fun d hd => get_names (q ++ ds) (by rw [h1]; simp) d (by simp [hd])
      have key : ∀ (ds : List Str) (top : Str), (∀ d ∈ ds, Plain d) → top <+: below top ds := by
        intro ds
        induction ds with
        | nil => intro top _; exact List.prefix_refl _
        | cons d ds ih =>
          intro top hd
          have hp := hd d (by simp)
          refine List.IsPrefix.trans ?_ (ih (join top d) fun x hx => hd x (by simp [hx]))
          unfold join
          rw [if_neg (plain_head hp)]
          split
          · exact ⟨d, rfl⟩
          · exact ⟨'/' :: d, rfl⟩
      exact (key ds root hp).isInfix
    simp [this]

/-- C106, the part that holds: without a text to hide, or with one that has no slash and does not occur in the path of the
directory, exactly the files are found whose name contains the pattern and that are in no directory, below the one that is
searched, whose name contains the text to hide; each is found once. -/
theorem C106_partial (V : View T cwd) {lim : Nat} {root pattern : Str} {hide : Option Str} {out : List Str}
    (hh : ∀ h, hide = some h → '/' ∉ h ∧ ¬ h <:+: root)
    (hf : findRecursive V lim root pattern hide = some out) {q : List Str} (hq : Opens T cwd root q) :
    (∀ p, p ∈ out ↔ ∃ ds f, FileIn T q ds f ∧ pattern <:+: f ∧ (∀ h, hide = some h → ∀ d ∈ ds, ¬ h <:+: d) ∧
      p = below root (ds ++ [f])) ∧ out.Nodup := by
  unfold findRecursive at hf
  simp only [Option.map_eq_some_iff] at hf
  obtain ⟨w, hw, rfl⟩ := hf
  cases hide with
  | none =>
    have := search_mem V hw (V.opens.2 hq) (fun _ => true) (fun f => decide (pattern <:+: f))
    simp only [if_true, true_and, decide_eq_true_eq] at this
    refine ⟨fun p => ?_, this.2⟩
    rw [this.1 p]
    simp
  | some h =>
    have := search_mem V hw (V.opens.2 hq) (fun d => !decide (h <:+: d)) (fun f => decide (pattern <:+: f))
    simp only [Bool.not_eq_true', decide_eq_false_iff_not, decide_eq_true_eq, ite_not] at this
    refine ⟨fun p => ?_, this.2⟩
    rw [this.1 p]
    obtain ⟨h1, h2⟩ := hh h rfl
    constructor
    · rintro ⟨ds, f, h3, h4, h5, h6⟩
      refine ⟨ds, f, h3, h5, ?_, h6⟩
      rintro _ ⟨⟩ d hd hi
      exact h4 ((infix_below h1 hq.1 fun x hx => h3.plain x (by simp [hx])).2 (Or.inr ⟨d, hd, hi⟩))
    · rintro ⟨ds, f, h3, h4, h5, h6⟩
      refine ⟨ds, f, h3, ?_, h4, h6⟩
      intro hi
      rcases (infix_below h1 hq.1 fun x hx => h3.plain x (by simp [hx])).1 hi with hi | ⟨d, hd, hi⟩
      · exact h2 hi
      · exact h5 h rfl d hd hi

/-! ### concrete cases -/

open Classical in
/-- every tree whose directories are finite can be looked at -/
noncomputable def viewOf (T : Tree) (cwd : List Str)
    (hfin : ∀ d, ∃ l : List Str, l.Nodup ∧ ∀ c, c ∈ l ↔ T.get (d ++ [c]) ≠ none) : View T cwd where
  ls d := (hfin d).choose
  isdir d c := decide (T.get (d ++ [c]) = some .dir ∨
    ∃ t m, T.get (d ++ [c]) = some (.link t) ∧ Walk T (start d t) (comps t) m ∧ T.get m = some .dir)
  opendir p := if h : ∃ q, Opens T cwd p q then some h.choose else none
  mem_ls d c := (hfin d).choose_spec.2 c
  nodup d := (hfin d).choose_spec.1
  isdir_iff d c := by simp
  opendir_iff p q := by
    constructor
    · intro h
      split at h
      · rename_i hex; cases h; exact hex.choose_spec
      · cases h
    · intro h
      have hex : ∃ q, Opens T cwd p q := ⟨q, h⟩
      rw [dif_pos hex, walk_det hex.choose_spec.2.1 h.2.1]

theorem ofList_finite {es : List (List Str × Node)} (h : Closed es) :
    (∀ d, ∃ l : List Str, l.Nodup ∧ ∀ c, c ∈ l ↔ (Tree.ofList es h).get (d ++ [c]) ≠ none) ∧
    ∀ N, (∀ e ∈ es, e.1.length ≤ N) → ∀ q, (Tree.ofList es h).get q ≠ none → q.length ≤ N := by
  constructor
  · intro d
    refine ⟨((es.filterMap fun e => e.1.getLast?).filter fun c => decide ((Tree.ofList es h).get (d ++ [c]) ≠ none)).dedup,
      List.nodup_dedup _, fun c => ?_⟩
    rw [List.mem_dedup, List.mem_filter, decide_eq_true_eq]
    refine ⟨fun h => h.2, fun hc => ⟨?_, hc⟩⟩
    obtain ⟨n, hn⟩ := Option.ne_none_iff_exists'.1 hc
    exact List.mem_filterMap.2 ⟨_, look_mem hn, by simp⟩
  · intro N hN q hq
    rcases List.eq_nil_or_concat q with rfl | ⟨q', c, rfl⟩
    · simp
    · rw [List.concat_eq_append] at *
      obtain ⟨n, hn⟩ := Option.ne_none_iff_exists'.1 hq
      exact hN _ (look_mem hn)

/-- C105 and C106 for the tree of C103 (`/proj/cur` is a link to `/proj/v1`): the searches return, `/proj` opens, the file in
`v1` is found once, under its own directory only; with `v1` hidden it is not found, that in `v2` is. -/
example : ∃ (V : View treeV1 []) (out out' : List Str),
    recursiveGlob V 10 (nm "/proj") (nm "*.c") = some out ∧ findRecursive V 10 (nm "/proj") (nm ".c") (some (nm "v1")) = some out' ∧
    Opens treeV1 [] (nm "/proj") [nm "proj"] ∧
    nm "/proj/v1/a.c" ∈ out ∧ nm "/proj/cur/a.c" ∉ out ∧ nm "/proj/v1/a.c" ∉ out' ∧ nm "/proj/v2/a.c" ∈ out' := by
  obtain ⟨hfin, hdeep⟩ := ofList_finite entries_closed.1
  have hN := hdeep 3 (by decide +kernel)
  let V : View treeV1 [] := viewOf treeV1 [] hfin
  obtain ⟨⟨out, h1⟩, -⟩ := C105_returns V hN (lim := 10) (by omega) (nm "/proj") (nm "*.c") none
  obtain ⟨-, ⟨out', h2⟩⟩ := C105_returns V hN (lim := 10) (by omega) (nm "/proj") (nm ".c") (some (nm "v1"))
  have hw : walkF treeV1 10 (start [] (nm "/proj")) (comps (nm "/proj")) = some [nm "proj"] := by decide +kernel
  have ho : Opens treeV1 [] (nm "/proj") [nm "proj"] := ⟨by decide, walkF_sound _ _ _ _ hw, by decide +kernel⟩
  have hfile : ∀ v ∈ [nm "v1", nm "v2"], FileIn treeV1 [nm "proj"] [v] (nm "a.c") := by
    intro v hv
    have : treeV1.get ([nm "proj"] ++ [v] ++ [nm "a.c"]) = some .file := by
      revert v; decide +kernel
    exact ⟨by rw [this]; simp, by rw [this]; simp, fun t m h => by rw [this] at h; cases h⟩
  have hr : reduced (nm "/proj") = [nm "proj"] := by decide +kernel
  have hone : ∀ x : Str, reduced (nm "/proj/" ++ x ++ nm "/a.c") = [nm "proj", x, nm "a.c"] →
      ∀ ds f, FileIn treeV1 [nm "proj"] ds f → nm "/proj/" ++ x ++ nm "/a.c" = below (nm "/proj") (ds ++ [f]) →
        ds = [x] ∧ f = nm "a.c" := by
    intro x hx ds f hf he
    rw [he, below_reduced ho.1 hf.plain, hr] at hx
    have hx := List.append_cancel_left (as := [nm "proj"]) hx
    have := List.append_inj' (s₂ := [x]) (t₂ := [nm "a.c"]) hx rfl
    exact ⟨this.1, by simpa using this.2⟩
  obtain ⟨hm, -⟩ := (C105_exact V h1).1 _ ho
  obtain ⟨hm', -⟩ := C106_partial V (by rintro _ ⟨⟩; decide +kernel) h2 ho
  refine ⟨V, out, out', h1, h2, ho, ?_, ?_, ?_, ?_⟩
  · exact (hm _).2 ⟨[nm "v1"], nm "a.c", hfile _ (by simp), (fnmatch_iff _ _).1 (by decide +kernel), by decide +kernel⟩
  · intro h
    obtain ⟨ds, f, hf, -, he⟩ := (hm _).1 h
    obtain ⟨rfl, rfl⟩ := hone (nm "cur") (by decide +kernel) ds f hf he
    exact hf.there (by decide +kernel)
  · intro h
    obtain ⟨ds, f, hf, -, hd, he⟩ := (hm' _).1 h
    obtain ⟨rfl, rfl⟩ := hone (nm "v1") (by decide +kernel) ds f hf he
    exact hd _ rfl (nm "v1") (by simp) (List.infix_refl _)
  · refine (hm' _).2 ⟨[nm "v2"], nm "a.c", hfile _ (by simp), by decide +kernel, ?_, by decide +kernel⟩
    rintro _ ⟨⟩; decide +kernel

end Licant.Misc.Glob
