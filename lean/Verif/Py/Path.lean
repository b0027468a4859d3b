/-
The parts of Python's `os.path` (posixpath) and of `str` used by licant, on lists of characters.
This models CPython's library, not code in /repo; the comment of each definition names the function.
-/
import Mathlib.Logic.Function.Iterate
import Mathlib.Data.List.Basic
import Mathlib.Tactic.Common

set_option autoImplicit false

namespace Licant.Py.Path

abbrev Str := List Char

/-- `posixpath.basename`: the part after the last slash -/
def basename (p : Str) : Str := (p.reverse.takeWhile (· ≠ '/')).reverse

/-- the part up to and including the last slash -/
def head (p : Str) : Str := (p.reverse.dropWhile (· ≠ '/')).reverse

/-- `str.rstrip('/')` -/
def rstrip (p : Str) : Str := (p.reverse.dropWhile (· = '/')).reverse

/-- `posixpath.dirname`: `head = p[:i]; if head and head != '/'*len(head): head = head.rstrip('/')` -/
def dirname (p : Str) : Str :=
  if (head p).all (· = '/') then head p else rstrip (head p)

/-- `posixpath.isabs` -/
def isabs (p : Str) : Bool := p.head? = some '/'

/-- `posixpath.join` of two arguments -/
def join (a b : Str) : Str :=
  if b.head? = some '/' then b
  else if a = [] ∨ a.getLast? = some '/' then a ++ b
  else a ++ '/' :: b

/-- `str.split('/')` -/
def comps (p : Str) : List Str := p.splitOnP (· = '/')

/-- one round of the loop of `posixpath.normpath`; `st` is `new_comps` reversed, `abs` says whether
there are initial slashes -/
def push (abs : Bool) (st : List Str) (c : Str) : List Str :=
  if c = [] ∨ c = ['.'] then st
  else if c ≠ ['.', '.'] ∨ (abs = false ∧ st = []) ∨ st.head? = some ['.', '.'] then c :: st
  else st.tail

/-- `normpath`: two slashes stay two, more become one -/
def initialSlashes (p : Str) : Nat :=
  match p with
  | '/' :: '/' :: '/' :: _ => 1
  | '/' :: '/' :: _ => 2
  | '/' :: _ => 1
  | _ => 0

/-- the components left by `normpath` -/
def reduced (p : Str) : List Str := ((comps p).foldl (push (initialSlashes p ≠ 0)) []).reverse

/-- `"/" * slashes + "/".join(cs)` -/
def render (slashes : Nat) (cs : List Str) : Str :=
  List.replicate slashes '/' ++ ['/'].intercalate cs

/-- `posixpath.normpath` -/
def normpath (p : Str) : Str :=
  if p = [] then ['.']
  else
    let r := render (initialSlashes p) (reduced p)
    if r = [] then ['.'] else r

/-- `os.path.normpath(os.path.dirname(p))`, used in make.py:126, 226, 303 -/
def parent (p : Str) : Str := normpath (dirname p)

/-- the part of a file name before its last dot, if that dot is there and something else than dots
precedes it: the root of `posixpath.splitext` (genericpath._splitext) -/
def stem (b : Str) : Str :=
  let pre := (b.reverse.dropWhile (· ≠ '.')).tail.reverse
  if pre.any (· ≠ '.') then pre else b

/-- `posixpath.splitext(p)[0]` -/
def splitextRoot (p : Str) : Str := head p ++ stem (basename p)

/-! ### facts about components -/

theorem head_append_basename (p : Str) : head p ++ basename p = p := by
  unfold head basename
  rw [← List.reverse_append, List.takeWhile_append_dropWhile, List.reverse_reverse]

theorem basename_noslash (p : Str) : '/' ∉ basename p := by
  unfold basename
  rw [List.mem_reverse]
  intro h
  have : (p.reverse.takeWhile (· ≠ '/')).all (· ≠ '/') = true := List.all_takeWhile
  rw [List.all_eq_true] at this
  simpa using this _ h

theorem head_spec (p : Str) : head p = [] ∨ ∃ q, head p = q ++ ['/'] := by
  unfold head
  generalize p.reverse = r
  induction r with
  | nil => left; rfl
  | cons a r ih =>
    rw [List.dropWhile_cons]
    by_cases ha : a = '/'
    · subst ha; right; exact ⟨r.reverse, by simp⟩
    · simp only [ne_eq, ha, not_false_eq_true, decide_true, if_true]
      exact ih

/-- no slash, nothing before it: a component `c` of a path -/
structure Plain (c : Str) : Prop where
  ne : c ≠ []
  noslash : '/' ∉ c
  dot : c ≠ ['.']
  dotdot : c ≠ ['.', '.']

theorem comps_noslash {c : Str} (h : '/' ∉ c) : comps c = [c] := by
  unfold comps
  apply List.splitOnP_eq_singleton
  intro x hx
  simp only [decide_eq_false_iff_not]
  rintro rfl
  exact h hx

theorem comps_cons {c p : Str} (h : '/' ∉ c) : comps (c ++ '/' :: p) = c :: comps p := by
  unfold comps
  induction c with
  | nil => simp [List.splitOnP_cons_eq_if_modifyHead]
  | cons a c ih =>
    have ha : a ≠ '/' := fun e => h (by simp [e])
    have hc : '/' ∉ c := fun e => h (by simp [e])
    rw [List.cons_append, List.splitOnP_cons_eq_if_modifyHead]
    simp only [ha, decide_false, Bool.false_eq_true, if_false]
    rw [ih hc]
    rfl

theorem comps_intercalate : ∀ {cs : List Str}, cs ≠ [] → (∀ c ∈ cs, '/' ∉ c) →
    comps (['/'].intercalate cs) = cs := by
  intro cs
  induction cs with
  | nil => intro h _; exact absurd rfl h
  | cons c cs ih =>
    intro _ h
    cases cs with
    | nil => simp [List.intercalate, comps_noslash (h c (by simp))]
    | cons d ds =>
      have : ['/'].intercalate (c :: d :: ds) = c ++ '/' :: ['/'].intercalate (d :: ds) := by
        simp [List.intercalate]
      rw [this, comps_cons (h c (by simp)), ih (by simp) (fun x hx => h x (by simp [hx]))]

theorem foldl_push_plain {abs : Bool} : ∀ (cs : List Str) (st : List Str), (∀ c ∈ cs, Plain c) →
    cs.foldl (push abs) st = cs.reverse ++ st := by
  intro cs
  induction cs with
  | nil => intro st _; rfl
  | cons c cs ih =>
    intro st h
    have hc := h c (by simp)
    rw [List.foldl_cons, ih _ (fun x hx => h x (by simp [hx]))]
    simp [push, hc.ne, hc.dot, hc.dotdot]

/-! ### absolute paths -/

/-- the absolute path with components `cs` -/
def absPath (cs : List Str) : Str := '/' :: ['/'].intercalate cs

theorem intercalate_snoc (cs : List Str) (c : Str) :
    ['/'].intercalate (cs ++ [c]) = if cs = [] then c else ['/'].intercalate cs ++ '/' :: c := by
  induction cs with
  | nil => simp [List.intercalate]
  | cons a cs ih =>
    cases cs with
    | nil => simp [List.intercalate]
    | cons b bs =>
      have e1 : ['/'].intercalate (a :: b :: bs ++ [c]) = a ++ '/' :: ['/'].intercalate (b :: bs ++ [c]) := by
        simp [List.intercalate]
      have e2 : ['/'].intercalate (a :: b :: bs) = a ++ '/' :: ['/'].intercalate (b :: bs) := by
        simp [List.intercalate]
      rw [e1, ih, e2]
      simp

theorem head_snoc {q c : Str} (h : '/' ∉ c) : head (q ++ '/' :: c) = q ++ ['/'] := by
  unfold head
  have : (q ++ '/' :: c).reverse = c.reverse ++ '/' :: q.reverse := by simp
  rw [this, List.dropWhile_append_of_pos]
  · simp
  · intro x hx
    simp only [decide_eq_true_eq]
    rintro rfl
    exact h (List.mem_reverse.1 hx)

theorem dirname_snoc {q c : Str} (h : '/' ∉ c) (hq : q.getLast? ≠ some '/') (hne : q ≠ []) :
    dirname (q ++ '/' :: c) = q := by
  unfold dirname
  rw [head_snoc h]
  have hn : ¬ ((q ++ ['/']).all (· = '/') = true) := by
    intro ha
    rw [List.all_eq_true] at ha
    apply hq
    obtain ⟨r, x, rfl⟩ := List.eq_nil_or_concat q |>.resolve_left hne
    have := ha x (by simp)
    simp only [decide_eq_true_eq] at this
    subst this
    simp
  rw [if_neg hn]
  unfold rstrip
  obtain ⟨r, x, rfl⟩ := List.eq_nil_or_concat q |>.resolve_left hne
  have hx : x ≠ '/' := by
    rintro rfl
    exact hq (by simp)
  simp [hx]

theorem intercalate_last {cs : List Str} (hne : cs ≠ []) (h : ∀ c ∈ cs, Plain c) :
    ['/'].intercalate cs ≠ [] ∧ (['/'].intercalate cs).getLast? ≠ some '/' ∧
    (['/'].intercalate cs).head? ≠ some '/' := by
  obtain ⟨r, x, rfl⟩ := List.eq_nil_or_concat cs |>.resolve_left hne
  have hx := h x (by simp)
  have hlast : x.getLast? ≠ some '/' := by
    intro e
    exact hx.noslash (List.mem_of_getLast? e)
  rw [List.concat_eq_append, intercalate_snoc]
  have hxl : ∃ r' a, x = r' ++ [a] := by
    obtain ⟨r', a, e⟩ := List.eq_nil_or_concat x |>.resolve_left hx.ne
    exact ⟨r', a, by simpa using e⟩
  obtain ⟨r', a, rfl⟩ := hxl
  refine ⟨?_, ?_, ?_⟩
  · split <;> simp
  · split
    · exact hlast
    · intro e
      apply hlast
      rw [← List.cons_append, ← List.append_assoc, List.getLast?_append] at e
      simpa using e
  · have key : ∀ c ∈ (r ++ [r' ++ [a]]), c.head? ≠ some '/' := by
      intro c hc e
      exact (h c (by simpa using hc)).noslash (List.mem_of_head? e)
    cases r with
    | nil => simpa using key (r' ++ [a]) (by simp)
    | cons b bs =>
      have hb := h b (by simp)
      have : ∃ t, ['/'].intercalate (b :: bs) = b ++ t := by
        cases bs with
        | nil => exact ⟨[], by simp [List.intercalate]⟩
        | cons d ds => exact ⟨'/' :: ['/'].intercalate (d :: ds), by simp [List.intercalate]⟩
      obtain ⟨t, ht⟩ := this
      simp only [List.cons_ne_nil, if_false]
      rw [ht]
      have hk := key b (by simp)
      cases b with
      | nil => exact absurd rfl hb.ne
      | cons y ys => simpa using hk

/-- the parent of `/c1/.../cn/c` is `/c1/.../cn` -/
theorem parent_absPath {cs : List Str} {c : Str} (h : ∀ x ∈ cs, Plain x) (hc : Plain c) :
    parent (absPath (cs ++ [c])) = absPath cs := by
  unfold parent absPath
  rw [intercalate_snoc]
  by_cases hcs : cs = []
  · subst hcs
    have hd : dirname ('/' :: c) = ['/'] := by
      unfold dirname
      have : head ('/' :: c) = ['/'] := by simpa using head_snoc (q := []) hc.noslash
      rw [this]; rfl
    simp only [if_true]
    rw [hd]
    decide
  · obtain ⟨h1, h2, h3⟩ := intercalate_last hcs h
    rw [if_neg hcs, ← List.cons_append, dirname_snoc hc.noslash (by
      rw [List.getLast?_cons]
      intro e
      cases hg : (['/'].intercalate cs).getLast? with
      | none => exact h1 (List.getLast?_eq_none_iff.1 hg)
      | some y =>
        rw [hg] at e
        simp only [Option.getD_some] at e
        exact h2 (by rw [hg]; exact e)) (by simp)]
    unfold normpath
    have hi : initialSlashes ('/' :: ['/'].intercalate cs) = 1 := by
      cases hh : ['/'].intercalate cs with
      | nil => exact absurd hh h1
      | cons y ys =>
        have hy : y ≠ '/' := by
          rintro rfl
          exact h3 (by rw [hh]; rfl)
        unfold initialSlashes
        split <;> simp_all
    have hr : reduced ('/' :: ['/'].intercalate cs) = cs := by
      unfold reduced
      rw [hi]
      have : comps ('/' :: ['/'].intercalate cs) = [] :: cs := by
        have := comps_cons (c := []) (p := ['/'].intercalate cs) (by simp)
        rw [List.nil_append] at this
        rw [this, comps_intercalate hcs (fun c hc => (h c hc).noslash)]
      rw [this, List.foldl_cons]
      rw [show push (decide (1 ≠ 0)) [] [] = [] from rfl, foldl_push_plain _ _ h]
      simp
    simp only [List.cons_ne_nil, if_false, hi, hr]
    simp [render]

/-! ### the parent is shorter -/

/-- length of a path with these components, counting a slash for each -/
def size (l : List Str) : Nat := (l.map (fun c => c.length + 1)).sum

@[simp] theorem size_nil : size [] = 0 := rfl
@[simp] theorem size_cons (c : Str) (l : List Str) : size (c :: l) = c.length + 1 + size l := by
  simp [size]

theorem size_push (abs : Bool) (st : List Str) (c : Str) : size (push abs st c) ≤ size st + c.length + 1 := by
  unfold push
  split
  · omega
  · split
    · simp; omega
    · cases st <;> simp; omega

theorem size_foldl (abs : Bool) : ∀ (cs st : List Str),
    size (cs.foldl (push abs) st) ≤ size st + size cs := by
  intro cs
  induction cs with
  | nil => intro st; simp
  | cons c cs ih =>
    intro st
    have h1 := ih (push abs st c)
    have h2 := size_push abs st c
    simp only [List.foldl_cons, size_cons]
    omega

theorem size_comps (p : Str) : size (comps p) = p.length + 1 := by
  unfold comps
  induction p with
  | nil => rfl
  | cons a p ih =>
    rw [List.splitOnP_cons_eq_if_modifyHead]
    by_cases ha : a = '/'
    · simp only [ha, decide_true, if_true, size_cons, List.length_nil, ih, List.length_cons]; omega
    · simp only [ha, decide_false, Bool.false_eq_true, if_false]
      cases hs : p.splitOnP (· = '/') with
      | nil => exact absurd hs (List.splitOnP_ne_nil _ _)
      | cons c cs =>
        rw [hs] at ih
        simp only [size_cons] at ih
        simp only [List.modifyHead_cons, size_cons, List.length_cons]
        omega

theorem size_reverse (l : List Str) : size l.reverse = size l := by
  simp [size, List.sum_reverse]

theorem length_intercalate : ∀ (cs : List Str), (['/'].intercalate cs).length = size cs - 1 := by
  intro cs
  induction cs with
  | nil => rfl
  | cons c cs ih =>
    cases cs with
    | nil => simp [List.intercalate]
    | cons d ds =>
      have : ['/'].intercalate (c :: d :: ds) = c ++ '/' :: ['/'].intercalate (d :: ds) := by
        simp [List.intercalate]
      rw [this]
      simp only [List.length_append, List.length_cons, ih, size_cons]
      omega

theorem initialSlashes_comps (p : Str) (abs : Bool) :
    size ((comps p).foldl (push abs) []) + initialSlashes p ≤ p.length + 1 ∧
    initialSlashes p ≤ p.length := by
  have key : ∀ q : Str, comps ('/' :: q) = [] :: comps q := by
    intro q
    simpa using comps_cons (c := []) (p := q) (by simp)
  have hp : ∀ st, push abs st [] = st := by intro st; simp [push]
  have general : ∀ q, size ((comps q).foldl (push abs) []) ≤ q.length + 1 := by
    intro q
    have := size_foldl abs (comps q) []
    rw [size_comps] at this
    simpa using this
  unfold initialSlashes
  split
  · rename_i q
    rw [key, List.foldl_cons, hp]
    have := general ('/' :: '/' :: q)
    simp only [List.length_cons] at this ⊢
    omega
  · rename_i q _
    rw [key, List.foldl_cons, hp, key, List.foldl_cons, hp]
    have := general q
    simp only [List.length_cons] at this ⊢
    omega
  · rename_i q _ _
    rw [key, List.foldl_cons, hp]
    have := general q
    simp only [List.length_cons] at this ⊢
    omega
  · have := general p
    omega

theorem normpath_length {p : Str} (h : p ≠ []) : (normpath p).length ≤ p.length := by
  unfold normpath
  rw [if_neg h]
  have h1 := initialSlashes_comps p (decide (initialSlashes p ≠ 0))
  have hp : 0 < p.length := List.length_pos_iff.2 h
  simp only
  split
  · simp only [List.length_cons, List.length_nil]; omega
  · unfold render reduced
    rw [List.length_append, List.length_replicate, length_intercalate, size_reverse]
    omega

theorem rstrip_length (p : Str) : (rstrip p).length ≤ p.length := by
  unfold rstrip
  rw [List.length_reverse, ← List.length_reverse (as := p)]
  exact (List.dropWhile_suffix _).length_le

/-- a path that `dirname` does not shorten consists of slashes only -/
theorem dirname_length (p : Str) : (dirname p).length < p.length ∨ (dirname p = p ∧ p.all (· = '/')) := by
  have hh := head_append_basename p
  have hlen : (head p).length + (basename p).length = p.length := by
    rw [← List.length_append, hh]
  unfold dirname
  split
  · rename_i ha
    by_cases hb : basename p = []
    · right
      rw [hb, List.append_nil] at hh
      rw [hh] at ha
      exact ⟨hh, ha⟩
    · left
      have := List.length_pos_iff.2 hb
      omega
  · rename_i ha
    left
    rcases head_spec p with h | ⟨q, h⟩
    · rw [h] at ha; simp at ha
    · rw [h] at hlen ⊢
      have : rstrip (q ++ ['/']) = rstrip q := by simp [rstrip]
      rw [this]
      have := rstrip_length q
      simp only [List.length_append, List.length_cons, List.length_nil] at hlen
      omega

/-- directories that always exist: the working directory and the roots -/
def Root (p : Str) : Prop := p = ['.'] ∨ p = ['/'] ∨ p = ['/', '/']

theorem comps_slashes : ∀ (p : Str), p.all (· = '/') = true → ∀ c ∈ comps p, c = [] := by
  intro p
  induction p with
  | nil => intro _ c hc; simpa [comps] using hc
  | cons a p ih =>
    intro h c hc
    simp only [List.all_cons, Bool.and_eq_true, decide_eq_true_eq] at h
    obtain ⟨rfl, h⟩ := h
    have := comps_cons (c := []) (p := p) (by simp)
    rw [List.nil_append] at this
    rw [this] at hc
    rcases List.mem_cons.1 hc with rfl | hc
    · rfl
    · exact ih h c hc

theorem normpath_slashes {p : Str} (h : p.all (· = '/') = true) : Root (normpath p) := by
  unfold normpath
  by_cases hp : p = []
  · rw [if_pos hp]; exact Or.inl rfl
  · rw [if_neg hp]
    have hr : reduced p = [] := by
      unfold reduced
      have : ∀ (l st : List Str), (∀ c ∈ l, c = []) → l.foldl (push (decide (initialSlashes p ≠ 0))) st = st := by
        intro l
        induction l with
        | nil => intro st _; rfl
        | cons c l ih =>
          intro st h
          have hc := h c (by simp)
          subst hc
          rw [List.foldl_cons, show push (decide (initialSlashes p ≠ 0)) st [] = st by simp [push]]
          exact ih st (fun x hx => h x (by simp [hx]))
      rw [this _ _ (comps_slashes p h)]
      rfl
    simp only [hr]
    cases p with
    | nil => exact absurd rfl hp
    | cons a p =>
      simp only [List.all_cons, Bool.and_eq_true, decide_eq_true_eq] at h
      obtain ⟨rfl, h⟩ := h
      have : initialSlashes ('/' :: p) = 1 ∨ initialSlashes ('/' :: p) = 2 := by
        unfold initialSlashes
        split <;> simp_all
      rcases this with e | e <;> rw [e] <;> simp [render, Root, List.intercalate]

/-- Going to the parent directory shortens a path or arrives at a directory that always exists. -/
theorem parent_length (p : Str) : Root (parent p) ∨ (parent p).length < p.length := by
  unfold parent
  rcases dirname_length p with h | ⟨h, ha⟩
  · by_cases hd : dirname p = []
    · left; rw [hd]; exact Or.inl rfl
    · right
      exact Nat.lt_of_le_of_lt (normpath_length hd) h
  · left
    rw [h]
    exact normpath_slashes ha

/-- one of the first ancestors of a path is a directory that always exists -/
theorem ancestor_root : ∀ (n : Nat) (p : Str), p.length ≤ n → ∃ i, i ≤ n ∧ Root (parent^[i + 1] p) := by
  intro n
  induction n with
  | zero =>
    intro p hp
    refine ⟨0, Nat.le_refl _, ?_⟩
    rcases parent_length p with h | h
    · exact h
    · omega
  | succ n ih =>
    intro p hp
    rcases parent_length p with h | h
    · exact ⟨0, by omega, h⟩
    · obtain ⟨i, hi, hr⟩ := ih (parent p) (by omega)
      exact ⟨i + 1, by omega, hr⟩

/-- A path is not among its own ancestors, unless it has an ancestor that always exists. -/
theorem no_cycle : ∀ (k : Nat) (p : Str), (∀ j < k, ¬ Root (parent^[j + 1] p)) →
    (parent^[k] p).length + k ≤ p.length := by
  intro k
  induction k with
  | zero => intro p _; simp
  | succ k ih =>
    intro p h
    have h1 := ih (parent p) (fun j hj => h (j + 1) (by omega))
    have h0 := h 0 (by omega)
    rcases parent_length p with hr | hl
    · exact absurd hr h0
    · rw [Function.iterate_succ_apply]
      omega

/-! ### characters -/

theorem mem_comps : ∀ {p c : Str} {x : Char}, c ∈ comps p → x ∈ c → x ∈ p := by
  intro p
  unfold comps
  induction p with
  | nil => intro c x hc hx; simp at hc; subst hc; cases hx
  | cons a p ih =>
    intro c x hc hx
    rw [List.splitOnP_cons_eq_if_modifyHead] at hc
    by_cases ha : a = '/'
    · simp only [ha, decide_true, if_true, List.mem_cons] at hc
      rcases hc with rfl | hc
      · cases hx
      · simp [ih hc hx]
    · simp only [ha, decide_false, Bool.false_eq_true, if_false] at hc
      cases hs : p.splitOnP (· = '/') with
      | nil => exact absurd hs (List.splitOnP_ne_nil _ _)
      | cons d ds =>
        rw [hs] at hc ih
        simp only [List.modifyHead_cons, List.mem_cons] at hc
        rcases hc with rfl | hc
        · rcases List.mem_cons.1 hx with rfl | hx
          · simp
          · simp [ih (List.mem_cons_self) hx]
        · simp [ih (List.mem_cons_of_mem _ hc) hx]

theorem mem_foldl_push {abs : Bool} : ∀ (cs st : List Str) {c : Str},
    c ∈ cs.foldl (push abs) st → c ∈ st ∨ c ∈ cs := by
  intro cs
  induction cs with
  | nil => intro st c h; exact Or.inl h
  | cons d cs ih =>
    intro st c h
    rcases ih _ h with h | h
    · unfold push at h
      split at h
      · exact Or.inl h
      · split at h
        · rcases List.mem_cons.1 h with rfl | h
          · right; simp
          · exact Or.inl h
        · exact Or.inl (List.mem_of_mem_tail h)
    · right; simp [h]

theorem mem_intercalate : ∀ {cs : List Str} {x : Char}, x ∈ ['/'].intercalate cs →
    x = '/' ∨ ∃ c ∈ cs, x ∈ c := by
  intro cs
  induction cs with
  | nil => intro x h; simp [List.intercalate] at h
  | cons c cs ih =>
    intro x h
    cases cs with
    | nil => right; exact ⟨c, by simp, by simpa [List.intercalate] using h⟩
    | cons d ds =>
      have : ['/'].intercalate (c :: d :: ds) = c ++ '/' :: ['/'].intercalate (d :: ds) := by
        simp [List.intercalate]
      rw [this, List.mem_append, List.mem_cons] at h
      rcases h with h | h | h
      · right; exact ⟨c, by simp, h⟩
      · exact Or.inl h
      · rcases ih h with h | ⟨e, he, hx⟩
        · exact Or.inl h
        · right; exact ⟨e, by simp only [List.mem_cons] at he ⊢; tauto, hx⟩

theorem mem_normpath {p : Str} {x : Char} (h : x ∈ normpath p) : x ∈ p ∨ x = '.' ∨ x = '/' := by
  unfold normpath at h
  split at h
  · right; left; simpa using h
  · simp only at h
    split at h
    · right; left; simpa using h
    · unfold render at h
      rw [List.mem_append] at h
      rcases h with h | h
      · right; right; exact List.eq_of_mem_replicate h
      · rcases mem_intercalate h with h | ⟨c, hc, hx⟩
        · right; right; exact h
        · left
          unfold reduced at hc
          rw [List.mem_reverse] at hc
          rcases mem_foldl_push _ _ hc with h | h
          · cases h
          · exact mem_comps h hx

theorem mem_head {p : Str} {x : Char} (h : x ∈ head p) : x ∈ p := by
  rw [← head_append_basename p]; simp [h]

theorem mem_parent {p : Str} {x : Char} (h : x ∈ parent p) : x ∈ p ∨ x = '.' ∨ x = '/' := by
  unfold parent at h
  rcases mem_normpath h with h | h
  · left
    unfold dirname at h
    split at h
    · exact mem_head h
    · unfold rstrip at h
      rw [List.mem_reverse] at h
      exact mem_head (List.mem_reverse.1 ((List.dropWhile_suffix _).subset h))
  · exact Or.inr h

end Licant.Py.Path
