/-
`build_paths` of licant/cxx_modules.py and `changeext` of licant/util.py: C53, C54, C55.
-/
import Mathlib.Data.List.TakeWhile
import Verif.Py.Path

set_option autoImplicit false

namespace Licant.Cxx
open Licant.Py Licant.Py.Path

/-! ### model -/

/-- `str.replace("..", "__")` -/
def replaceDots : Str → Str
  | '.' :: '.' :: r => '_' :: '_' :: replaceDots r
  | c :: r => c :: replaceDots r
  | [] => []

/-- licant/util.py:204-205 -/
def changeext (path newext : Str) : Str := splitextRoot path ++ '.' :: newext

/-- licant/cxx_modules.py:242-244; `none` is also the empty prefix -/
def addPrefix (pre : Option Str) (s : Str) : Str :=
  match pre with
  | none => s
  | some [] => s
  | some p => join (dirname s) (p ++ basename s)

/-- licant/cxx_modules.py:241-255, one round of the loop -/
def buildPath (ext : Str) (pre : Option Str) (builddir s : Str) : Str :=
  let s := addPrefix pre s
  if isabs s then builddir ++ changeext s ext
  else normpath (join builddir (replaceDots (changeext s ext)))

/-- licant/cxx_modules.py:235-257; `builddir` is the parameter or the option (line 236-237) -/
def buildPaths (srcs : List Str) (ext : Str) (pre : Option Str) (builddir : Str) : List Str :=
  srcs.map (buildPath ext pre builddir)

/-! ### components of paths -/

theorem comps_append (a b : Str) : comps (a ++ '/' :: b) = comps a ++ comps b := by
  unfold comps
  induction a with
  | nil => simp [List.splitOnP_cons_eq_if_modifyHead]
  | cons x a ih =>
    rw [List.cons_append, List.splitOnP_cons_eq_if_modifyHead, List.splitOnP_cons_eq_if_modifyHead]
    by_cases hx : x = '/'
    · simp [hx, ih]
    · simp only [hx, decide_false, Bool.false_eq_true, if_false]
      rw [ih]
      cases h : List.splitOnP (fun x => decide (x = '/')) a with
      | nil => exact absurd h (List.splitOnP_ne_nil _ _)
      | cons y ys => rfl

/-- `normpath` drops components that are empty or a dot and keeps the others, if there is no `..` -/
theorem foldl_push_filter {abs : Bool} : ∀ (cs st : List Str), (∀ c ∈ cs, c ≠ ['.', '.']) →
    cs.foldl (push abs) st = (cs.filter (fun c => decide (c ≠ [] ∧ c ≠ ['.']))).reverse ++ st := by
  intro cs
  induction cs with
  | nil => intro st _; rfl
  | cons c cs ih =>
    intro st h
    rw [List.foldl_cons, ih _ (fun x hx => h x (List.mem_cons_of_mem _ hx)), List.filter_cons]
    unfold push
    by_cases h1 : c = [] ∨ c = ['.']
    · rw [if_pos h1, if_neg]
      simp only [decide_eq_true_eq, not_and_or, not_not]
      exact h1
    · rw [if_neg h1, if_pos (Or.inl (h c (by simp))), if_pos]
      · simp
      · simp only [decide_eq_true_eq]
        rw [not_or] at h1
        exact h1

theorem reduced_rel {p : Str} (h : ∀ c ∈ comps p, c ≠ ['.', '.']) :
    reduced p = (comps p).filter (fun c => decide (c ≠ [] ∧ c ≠ ['.'])) := by
  unfold reduced
  rw [foldl_push_filter _ _ h]
  simp

theorem initialSlashes_eq (p : Str) : initialSlashes p =
    if p[0]? = some '/' then (if p[1]? = some '/' ∧ p[2]? ≠ some '/' then 2 else 1) else 0 := by
  unfold initialSlashes
  split
  · simp
  · rename_i t h
    have : t[0]? ≠ some '/' := by
      intro e
      cases t with
      | nil => cases e
      | cons a t => simp at e; exact h t (by rw [e])
    cases t <;> simp_all
  · rename_i t h1 h2
    have : t[0]? ≠ some '/' := by
      intro e
      cases t with
      | nil => cases e
      | cons a t => simp at e; exact h2 t (by rw [e])
    simp [this]
  · rename_i h1 h2 h3
    rw [if_neg]
    intro e
    cases p with
    | nil => cases e
    | cons a t => simp at e; exact h3 t (by rw [e])

theorem initialSlashes_join {b r : Str} (hr : r.head? ≠ some '/') (hb : b ≠ []) :
    initialSlashes (join b r) = initialSlashes b := by
  unfold join
  rw [if_neg hr]
  have key : ∀ x : Str, (x.head? = some '/' → b.getLast? ≠ some '/') → initialSlashes (b ++ x) = initialSlashes b := by
    intro x hx
    rw [initialSlashes_eq, initialSlashes_eq]
    match b, hb with
    | [c], _ =>
      by_cases hc : c = '/'
      · subst hc
        have hx' : x.head? ≠ some '/' := fun e => hx e rfl
        cases x with
        | nil => rfl
        | cons y ys =>
          have : y ≠ '/' := by simpa using hx'
          simp [this]
      · simp [hc]
    | [c, d], _ =>
      by_cases hc : c = '/'
      · subst hc
        by_cases hd : d = '/'
        · subst hd
          have hx' : x.head? ≠ some '/' := fun e => hx e rfl
          cases x with
          | nil => rfl
          | cons y ys =>
            have : y ≠ '/' := by simpa using hx'
            simp [this]
        · simp [hd]
      · simp [hc]
    | c :: d :: e :: b, _ => simp
  split
  · rename_i h
    exact key r (fun e => absurd e hr)
  · rename_i h
    rw [not_or] at h
    exact key ('/' :: r) (fun _ => h.2)

theorem comps_nil : comps [] = [[]] := rfl

theorem foldl_comps_join {abs : Bool} {b r : Str} (hr : r.head? ≠ some '/') :
    (comps (join b r)).foldl (push abs) [] = (comps r).foldl (push abs) ((comps b).foldl (push abs) []) := by
  unfold join
  rw [if_neg hr]
  split
  · rename_i h
    by_cases hb : b = []
    · subst hb
      rfl
    · have hl : b.getLast? = some '/' := h.resolve_left hb
      obtain ⟨b', rfl⟩ : ∃ b', b = b' ++ ['/'] := by
        rw [List.getLast?_eq_some_iff] at hl
        exact hl
      rw [List.append_assoc]
      show (comps (b' ++ '/' :: r)).foldl _ _ = _
      rw [comps_append, show b' ++ ['/'] = b' ++ '/' :: [] from rfl, comps_append, List.foldl_append,
        List.foldl_append]
      rfl
  · rw [comps_append, List.foldl_append]

/-- joining a relative path without `..` and normalising appends its components -/
theorem reduced_join {b r : Str} (hr : r.head? ≠ some '/') (hb : b ≠ []) (hd : ∀ c ∈ comps r, c ≠ ['.', '.']) :
    reduced (join b r) = reduced b ++ (comps r).filter (fun c => decide (c ≠ [] ∧ c ≠ ['.'])) := by
  unfold reduced
  rw [initialSlashes_join hr hb, foldl_comps_join hr, foldl_push_filter _ _ hd]
  simp

theorem comps_noslash_mem {p c : Str} (h : c ∈ comps p) : '/' ∉ c := by
  induction p generalizing c with
  | nil =>
    rw [comps_nil, List.mem_singleton] at h
    subst h
    simp
  | cons x p ih =>
    unfold comps at h ih
    rw [List.splitOnP_cons_eq_if_modifyHead] at h
    by_cases hx : x = '/'
    · simp only [hx, decide_true, if_true, List.mem_cons] at h
      rcases h with rfl | h
      · simp
      · exact ih h
    · simp only [hx, decide_false, Bool.false_eq_true, if_false] at h
      cases hs : List.splitOnP (fun x => decide (x = '/')) p with
      | nil => exact absurd hs (List.splitOnP_ne_nil _ _)
      | cons y ys =>
        rw [hs] at h ih
        simp only [List.modifyHead_cons, List.mem_cons] at h
        rcases h with rfl | h
        · simp only [List.mem_cons, not_or]
          exact ⟨fun e => hx e.symm, ih (by simp)⟩
        · exact ih (List.mem_cons_of_mem _ h)

theorem getLast?_comps {p : Str} {x : Char} (h : p.getLast? = some x) (hx : x ≠ '/') :
    ∃ c ∈ comps p, x ∈ c := by
  have hmem : x ∈ p := List.mem_of_getLast? h
  clear h
  induction p with
  | nil => cases hmem
  | cons y p ih =>
    unfold comps at ih ⊢
    rw [List.splitOnP_cons_eq_if_modifyHead]
    by_cases hy : y = '/'
    · simp only [hy, decide_true, if_true]
      rcases List.mem_cons.1 hmem with e | hm
      · exact absurd (e.trans hy) hx
      · obtain ⟨c, h1, h2⟩ := ih hm
        exact ⟨c, List.mem_cons_of_mem _ h1, h2⟩
    · simp only [hy, decide_false, Bool.false_eq_true, if_false]
      cases hs : List.splitOnP (fun x => decide (x = '/')) p with
      | nil => exact absurd hs (List.splitOnP_ne_nil _ _)
      | cons z zs =>
        rw [hs] at ih
        simp only [List.modifyHead_cons]
        rcases List.mem_cons.1 hmem with rfl | hm
        · exact ⟨x :: z, by simp, by simp⟩
        · obtain ⟨c, h1, h2⟩ := ih hm
          rcases List.mem_cons.1 h1 with rfl | h1
          · exact ⟨y :: c, by simp, List.mem_cons_of_mem _ h2⟩
          · exact ⟨c, List.mem_cons_of_mem _ h1, h2⟩

/-! ### `replace` -/

/-- `l` contains two dots in a row -/
def TwoDots (l : Str) : Prop := ['.', '.'] <:+: l

theorem replaceDots_notTwo (l : Str) : ¬ TwoDots (replaceDots l) := by
  fun_induction replaceDots l with
  | case1 r ih =>
    intro h
    unfold TwoDots at h ih
    rw [List.infix_cons_iff, List.infix_cons_iff] at h
    rcases h with h | h | h
    · simp at h
    · simp at h
    · exact ih h
  | case2 c r hne ih =>
    intro h
    unfold TwoDots at h ih
    rw [List.infix_cons_iff] at h
    rcases h with h | h
    · rw [List.cons_prefix_cons] at h
      obtain ⟨rfl, h⟩ := h
      match r, hne with
      | [], _ => simp [replaceDots] at h
      | x :: r', hne =>
        have hx : x ≠ '.' := fun e => hne r' rfl (by rw [e])
        have : (replaceDots (x :: r')).head? = some x := by
          unfold replaceDots
          split
          · rename_i e; exact absurd (List.cons.inj e).1 hx
          · rename_i e; rw [(List.cons.inj e).1]; rfl
          · rename_i e; cases e
        cases hr : replaceDots (x :: r') with
        | nil => rw [hr] at this; cases this
        | cons y ys =>
          rw [hr] at this h
          cases this
          rw [List.cons_prefix_cons] at h
          exact hx h.1.symm
    · exact ih h
  | case3 => intro h; simp [TwoDots] at h

theorem replaceDots_id {l : Str} (h : ¬ TwoDots l) : replaceDots l = l := by
  fun_induction replaceDots l with
  | case1 r ih => exact absurd ⟨[], r, rfl⟩ h
  | case2 c r hne ih =>
    rw [ih]
    intro h'
    exact h (List.infix_cons h')
  | case3 => rfl

theorem replaceDots_head (l : Str) : (replaceDots l).head? = some '/' ↔ l.head? = some '/' := by
  fun_induction replaceDots l <;> simp

theorem replaceDots_last {l : Str} {x : Char} (hx : x ≠ '.') : (replaceDots (l ++ [x])).getLast? = some x := by
  fun_induction replaceDots l with
  | case1 r ih =>
    show ('_' :: '_' :: replaceDots (r ++ [x])).getLast? = _
    cases h : replaceDots (r ++ [x]) with
    | nil => rw [h] at ih; cases ih
    | cons a t =>
      rw [h] at ih
      rw [List.getLast?_cons_cons, List.getLast?_cons_cons]
      exact ih
  | case2 c r hne ih =>
    have : replaceDots (c :: r ++ [x]) = c :: replaceDots (r ++ [x]) := by
      show replaceDots (c :: (r ++ [x])) = _
      conv_lhs => unfold replaceDots
      split
      · rename_i r' e
        obtain ⟨e1, e⟩ := List.cons.inj e
        cases r with
        | nil => exact absurd (List.cons.inj e).1 hx
        | cons y r => exact absurd (by rw [(List.cons.inj e).1]) (hne r e1)
      · rename_i e
        obtain ⟨rfl, rfl⟩ := List.cons.inj e
        rfl
      · rename_i e; cases e
    rw [this]
    cases h : replaceDots (r ++ [x]) with
    | nil => rw [h] at ih; cases ih
    | cons a t =>
      rw [h] at ih
      rw [List.getLast?_cons_cons]
      exact ih
  | case3 =>
    show (replaceDots [x]).getLast? = _
    unfold replaceDots
    split <;> simp_all [replaceDots]

theorem comps_infix {p c : Str} (h : c ∈ comps p) : c <:+: p := by
  have key : ∀ p : Str, (∀ c ∈ comps p, c <:+: p) ∧ (∃ c cs, comps p = c :: cs ∧ c <+: p) := by
    intro p
    induction p with
    | nil => simp [comps_nil]
    | cons x p ih =>
      unfold comps at ih ⊢
      rw [List.splitOnP_cons_eq_if_modifyHead]
      by_cases hx : x = '/'
      · simp only [hx, decide_true, if_true]
        refine ⟨?_, [], _, rfl, List.nil_prefix⟩
        intro c hc
        rcases List.mem_cons.1 hc with rfl | hc
        · exact List.nil_infix
        · exact List.infix_cons (ih.1 c hc)
      · simp only [hx, decide_false, Bool.false_eq_true, if_false]
        obtain ⟨h1, c0, cs, h2, h3⟩ := ih
        rw [h2] at h1 ⊢
        simp only [List.modifyHead_cons]
        refine ⟨?_, _, _, rfl, List.prefix_cons_inj x |>.2 h3⟩
        intro c hc
        rcases List.mem_cons.1 hc with rfl | hc
        · exact (List.prefix_cons_inj x |>.2 h3).isInfix
        · exact List.infix_cons (h1 c (List.mem_cons_of_mem _ hc))
  exact (key p).1 c h

/-! ### C53 -/

theorem splitextRoot_prefix (p : Str) : splitextRoot p <+: p := by
  unfold splitextRoot
  conv_rhs => rw [← head_append_basename p]
  rw [List.prefix_append_right_inj]
  unfold stem
  simp only
  split
  · generalize basename p = b
    have h : (b.reverse.dropWhile (· ≠ '.')).tail <:+ b.reverse :=
      (List.tail_suffix _).trans (List.dropWhile_suffix _)
    have := List.reverse_prefix.2 h
    rwa [List.reverse_reverse] at this
  · exact List.prefix_refl _

theorem splitextRoot_ne {p : Str} (h : p ≠ []) : splitextRoot p ≠ [] := by
  unfold splitextRoot
  intro e
  rw [List.append_eq_nil_iff] at e
  have hb : basename p = p := by
    have := head_append_basename p
    rw [e.1] at this
    exact this
  have e2 := e.2
  unfold stem at e2
  simp only at e2
  split at e2
  · rename_i h1
    rw [e2] at h1
    simp at h1
  · rw [hb] at e2; exact h e2

theorem changeext_head (p e : Str) : (changeext p e).head? = some '/' ↔ p.head? = some '/' := by
  unfold changeext
  cases p with
  | nil => simp [splitextRoot, head, basename, stem]
  | cons a p =>
    have h1 := splitextRoot_ne (p := a :: p) (by simp)
    have h2 := splitextRoot_prefix (a :: p)
    cases h : splitextRoot (a :: p) with
    | nil => exact absurd h h1
    | cons b r =>
      rw [h, List.cons_prefix_cons] at h2
      rw [h2.1]
      simp

/-- An extension such as `o`, `d` or `h.cxx.o`. -/
def GoodExt (ext : Str) : Prop := '/' ∉ ext ∧ ∃ e x, ext = e ++ [x] ∧ x ≠ '.'

/-- `cs` joined with slashes, seen from the directory `dir`: what `normpath` makes of `dir/c1/.../cn` -/
def below (dir : Str) (cs : List Str) : Str :=
  if normpath dir = ['.'] then ['/'].intercalate cs else join (normpath dir) (['/'].intercalate cs)

theorem mem_foldl_push' {abs : Bool} : ∀ (cs st : List Str),
    (∀ c ∈ st, c ≠ [] ∧ c ≠ ['.']) → ∀ c ∈ cs.foldl (push abs) st, c ≠ [] ∧ c ≠ ['.'] := by
  intro cs
  induction cs with
  | nil => intro st h; exact h
  | cons a cs ih =>
    intro st h
    rw [List.foldl_cons]
    apply ih
    intro c hc
    unfold push at hc
    split at hc
    · exact h c hc
    · rename_i ha
      rw [not_or] at ha
      split at hc
      · rcases List.mem_cons.1 hc with rfl | hc
        · exact ha
        · exact h c hc
      · exact h c (List.mem_of_mem_tail hc)

theorem mem_reduced {p c : Str} (h : c ∈ reduced p) : c ≠ [] ∧ c ≠ ['.'] ∧ '/' ∉ c := by
  unfold reduced at h
  rw [List.mem_reverse] at h
  obtain ⟨h1, h2⟩ := mem_foldl_push' _ [] (by simp) c h
  refine ⟨h1, h2, ?_⟩
  rcases mem_foldl_push _ _ h with h | h
  · cases h
  · exact comps_noslash_mem h

theorem intercalate_end {l : List Str} (hne : l ≠ []) (h : ∀ c ∈ l, c ≠ [] ∧ '/' ∉ c) :
    ['/'].intercalate l ≠ [] ∧ (['/'].intercalate l).getLast? ≠ some '/' := by
  obtain ⟨r, x, rfl⟩ := List.eq_nil_or_concat l |>.resolve_left hne
  rw [List.concat_eq_append] at h ⊢
  obtain ⟨hx1, hx2⟩ := h x (by simp)
  have hlast : x.getLast? ≠ some '/' := fun e => hx2 (List.mem_of_getLast? e)
  rw [intercalate_snoc]
  split
  · exact ⟨hx1, hlast⟩
  · refine ⟨by simp, ?_⟩
    intro e
    rw [List.getLast?_append] at e
    cases x with
    | nil => exact hx1 rfl
    | cons y ys =>
      rw [List.getLast?_cons_cons] at e
      cases hh : (y :: ys).getLast? with
      | none => simp at hh
      | some z =>
        rw [hh] at e hlast
        simp only [Option.some_or] at e
        exact hlast e

theorem render_below {b : Str} {cs : List Str} (hne : cs ≠ []) (hp : ∀ c ∈ cs, Plain c) (hb : b ≠ []) :
    render (initialSlashes b) (reduced b ++ cs) = below b cs := by
  have hi : ∃ c cs', cs = c :: cs' := List.exists_cons_of_ne_nil hne
  obtain ⟨c, cs', rfl⟩ := hi
  have hhead : (['/'].intercalate (c :: cs')).head? ≠ some '/' := by
    have hc := hp c (by simp)
    cases hcc : c with
    | nil => exact absurd hcc hc.ne
    | cons x xs =>
      cases cs' with
      | nil =>
        simp [List.intercalate]
        rintro rfl
        exact hc.noslash (by rw [hcc]; simp)
      | cons d ds =>
        simp [List.intercalate, List.intersperse]
        rintro rfl
        exact hc.noslash (by rw [hcc]; simp)
  have happ : ∀ (l : List Str), l ≠ [] → ['/'].intercalate (l ++ c :: cs') =
      ['/'].intercalate l ++ '/' :: ['/'].intercalate (c :: cs') := by
    intro l
    induction l with
    | nil => intro h; exact absurd rfl h
    | cons a l ih =>
      intro _
      cases l with
      | nil => simp [List.intercalate]
      | cons a' l =>
        have e1 : ['/'].intercalate (a :: a' :: l ++ c :: cs') =
            a ++ '/' :: ['/'].intercalate (a' :: l ++ c :: cs') := by simp [List.intercalate]
        have e2 : ['/'].intercalate (a :: a' :: l) = a ++ '/' :: ['/'].intercalate (a' :: l) := by
          simp [List.intercalate]
        rw [e1, ih (by simp), e2]
        simp
  have hnorm : normpath b = if render (initialSlashes b) (reduced b) = [] then ['.'] else
      render (initialSlashes b) (reduced b) := by
    unfold normpath
    rw [if_neg hb]
  have hred := fun c => mem_reduced (p := b) (c := c)
  generalize initialSlashes b = k at hnorm
  generalize reduced b = rs at hnorm hred
  unfold below
  generalize normpath b = nb at hnorm
  by_cases hrs : rs = []
  · subst hrs
    simp only [List.nil_append]
    cases k with
    | zero =>
      have : nb = ['.'] := by rw [hnorm]; rfl
      rw [if_pos this]
      simp [render]
    | succ k =>
      have hr : render (k + 1) [] = List.replicate (k + 1) '/' := by simp [render, List.intercalate]
      have hnb : nb = List.replicate (k + 1) '/' := by
        rw [hnorm, hr, if_neg]
        simp [List.replicate_succ]
      rw [if_neg (by rw [hnb]; simp [List.replicate_succ])]
      unfold join
      rw [if_neg hhead, if_pos]
      · rw [hnb]; rfl
      · right
        rw [hnb, List.replicate_succ']
        simp
  · obtain ⟨h1, h2⟩ := intercalate_end hrs (fun c hc => ⟨(hred c hc).1, (hred c hc).2.2⟩)
    have hlast : (render k rs).getLast? ≠ some '/' := by
      unfold render
      rw [List.getLast?_append]
      cases hh : (['/'].intercalate rs).getLast? with
      | none => rw [List.getLast?_eq_none_iff] at hh; exact absurd hh h1
      | some z =>
        rw [hh] at h2
        simpa using h2
    have hrne : render k rs ≠ [] := by simp [render, h1]
    have hnb : nb = render k rs := by rw [hnorm, if_neg hrne]
    have hdot : nb ≠ ['.'] := by
      rw [hnb]
      intro e
      unfold render at e
      cases k with
      | succ k => rw [List.replicate_succ, List.cons_append] at e; cases (List.cons.inj e).1
      | zero =>
        simp only [List.replicate_zero, List.nil_append] at e
        match rs, hrs with
        | [x], _ =>
          simp [List.intercalate] at e
          exact (hred x (by simp)).2.1 e
        | x :: y :: l, _ =>
          have : '/' ∈ ['/'].intercalate (x :: y :: l) := by simp [List.intercalate]
          rw [e] at this
          simp at this
    rw [if_neg hdot]
    unfold join
    rw [if_neg hhead, if_neg]
    · rw [hnb]
      unfold render
      rw [happ rs hrs]
      simp
    · rw [hnb, not_or]
      exact ⟨hrne, hlast⟩

/-- a relative path below the build directory -/
theorem normpath_join {b r : Str} (hr : r.head? ≠ some '/') (hd : ¬ TwoDots r) {x : Char}
    (hl : r.getLast? = some x) (hx : x ≠ '/' ∧ x ≠ '.') :
    ∃ cs : List Str, cs ≠ [] ∧ (∀ c ∈ cs, Plain c) ∧
      cs = (comps r).filter (fun c => decide (c ≠ [] ∧ c ≠ ['.'])) ∧ normpath (join b r) = below b cs := by
  have hdd : ∀ c ∈ comps r, c ≠ ['.', '.'] := by
    rintro c hc rfl
    exact hd (comps_infix hc)
  have hplain : ∀ c ∈ (comps r).filter (fun c => decide (c ≠ [] ∧ c ≠ ['.'])), Plain c := by
    intro c hc
    rw [List.mem_filter] at hc
    have := of_decide_eq_true hc.2
    exact ⟨this.1, comps_noslash_mem hc.1, this.2, hdd c hc.1⟩
  have hne : (comps r).filter (fun c => decide (c ≠ [] ∧ c ≠ ['.'])) ≠ [] := by
    obtain ⟨c, hc1, hc2⟩ := getLast?_comps hl hx.1
    intro e
    have : c ∈ (comps r).filter (fun c => decide (c ≠ [] ∧ c ≠ ['.'])) := by
      rw [List.mem_filter]
      refine ⟨hc1, ?_⟩
      rw [decide_eq_true_eq]
      refine ⟨List.ne_nil_of_mem hc2, ?_⟩
      rintro rfl
      exact hx.2 (List.mem_singleton.1 hc2)
    rw [e] at this
    cases this
  obtain ⟨cs, hcs⟩ : ∃ cs, cs = (comps r).filter (fun c => decide (c ≠ [] ∧ c ≠ ['.'])) := ⟨_, rfl⟩
  rw [← hcs] at hplain hne
  refine ⟨cs, hne, hplain, hcs, ?_⟩
  have hint := (intercalate_end hne (fun c hc => ⟨(hplain c hc).ne, (hplain c hc).noslash⟩)).1
  have hrne : r ≠ [] := by rintro rfl; cases hl
  by_cases hb : b = []
  · subst hb
    have e : join [] r = r := by
      unfold join
      rw [if_neg hr]
      simp
    have hi : initialSlashes r = 0 := by
      rw [initialSlashes_eq, if_neg]
      intro h
      apply hr
      rw [List.head?_eq_getElem?]
      exact h
    have hb : below [] cs = ['/'].intercalate cs := if_pos rfl
    rw [e, hb]
    unfold normpath
    rw [if_neg hrne, hi, reduced_rel hdd, ← hcs]
    simp only [render, List.replicate_zero, List.nil_append]
    exact if_neg hint
  · have hj : join b r ≠ [] := by
      unfold join
      split
      · exact hrne
      · split <;> simp [hb]
    unfold normpath
    rw [if_neg hj, initialSlashes_join hr hb, reduced_join hr hb hdd, ← hcs, render_below hne hplain hb]
    refine if_neg ?_
    unfold below
    split
    · exact hint
    · unfold join
      split
      · exact hint
      · split
        · intro e; exact hint (List.append_eq_nil_iff.1 e).2
        · simp

theorem GoodExt.last {ext : Str} (h : GoodExt ext) (p : Str) : ∃ x, (replaceDots (changeext p ext)).getLast? = some x ∧
    x ≠ '/' ∧ x ≠ '.' := by
  obtain ⟨h1, e, x, rfl, hx⟩ := h
  refine ⟨x, ?_, ?_, hx⟩
  · unfold changeext
    rw [← List.cons_append, ← List.append_assoc]
    exact replaceDots_last hx
  · rintro rfl
    exact h1 (by simp)

/-- relative stays relative when the prefix is added -/
theorem addPrefix_head {pre : Option Str} (hp : ∀ p, pre = some p → '/' ∉ p) {s : Str} (h : isabs s = false) :
    isabs (addPrefix pre s) = false := by
  have hs : s.head? ≠ some '/' := by simpa [isabs] using h
  unfold addPrefix
  split
  · exact h
  · exact h
  · rename_i p hne
    have hp' := hp p rfl
    have hpne : p ≠ [] := by rintro rfl; exact hne rfl
    have hph : (p ++ basename s).head? ≠ some '/' := by
      cases p with
      | nil => exact absurd rfl hpne
      | cons a p =>
        simp only [List.cons_append, List.head?_cons, ne_eq, Option.some.injEq]
        rintro rfl
        exact hp' (by simp)
    have hd : (dirname s).head? ≠ some '/' := by
      have hpre : dirname s <+: s := by
        have h1 : head s <+: s := ⟨basename s, head_append_basename s⟩
        unfold dirname
        split
        · exact h1
        · refine List.IsPrefix.trans ?_ h1
          unfold rstrip
          have := List.reverse_prefix.2 (List.dropWhile_suffix (l := (head s).reverse) (· = '/'))
          rwa [List.reverse_reverse] at this
      intro e
      cases hds : dirname s with
      | nil => rw [hds] at e; cases e
      | cons a t =>
        rw [hds] at e hpre
        obtain ⟨u, hu⟩ := hpre
        rw [← hu] at hs
        exact hs (by simpa using e)
    simp only [isabs, decide_eq_false_iff_not]
    unfold join
    rw [if_neg hph]
    split
    · rename_i h
      intro e
      cases hds : dirname s with
      | nil =>
        rw [hds] at e
        exact hph e
      | cons a t =>
        rw [hds] at e hd
        exact hd (by simpa using e)
    · rename_i h
      rw [not_or] at h
      intro e
      cases hds : dirname s with
      | nil => exact h.1 hds
      | cons a t =>
        rw [hds] at e hd
        exact hd (by simpa using e)

/-- C53: the output for a relative source is a proper path below the build directory: `builddir/c1/.../cn` with
components that are neither empty nor `.` nor `..`. -/
theorem C53_inside {ext : Str} (hext : GoodExt ext) {pre : Option Str} (hpre : ∀ p, pre = some p → '/' ∉ p)
    (builddir s : Str) (hs : isabs s = false) :
    ∃ cs : List Str, cs ≠ [] ∧ (∀ c ∈ cs, Plain c) ∧ buildPath ext pre builddir s = below builddir cs := by
  have h := addPrefix_head hpre hs
  unfold buildPath
  simp only [h, Bool.false_eq_true, if_false]
  have hhead : (replaceDots (changeext (addPrefix pre s) ext)).head? ≠ some '/' := by
    rw [ne_eq, replaceDots_head, changeext_head]
    simpa [isabs] using h
  obtain ⟨x, hx1, hx2⟩ := hext.last (addPrefix pre s)
  obtain ⟨cs, h1, h2, _, h4⟩ := normpath_join (b := builddir) hhead (replaceDots_notTwo _) hx1 hx2
  exact ⟨cs, h1, h2, h4⟩

/-- A source far outside the project and a nested build directory. -/
example : buildPath "o".toList none "build/./x".toList "../../lib//a/./b.test.cpp".toList =
    "build/x/__/__/lib/a/b.test.o".toList ∧
    below "build/./x".toList ["__".toList, "__".toList, "lib".toList, "a".toList, "b.test.o".toList] =
      "build/x/__/__/lib/a/b.test.o".toList ∧
    GoodExt "o".toList ∧ isabs "../../lib//a/./b.test.cpp".toList = false :=
  ⟨by decide +kernel, by decide +kernel, ⟨by decide +kernel, [], 'o', rfl, by decide⟩, by decide +kernel⟩

/-! ### C54 -/

/-- `s` has the extension `e`, as `os.path.splitext` understands it -/
def HasExt (e s : Str) : Prop := s = splitextRoot s ++ '.' :: e

theorem comps_append_noslash {x : Str} (hx : '/' ∉ x) : ∀ a : Str, ∃ l c, comps a = l ++ [c] ∧
    comps (a ++ x) = l ++ [c ++ x] := by
  intro a
  induction a with
  | nil => exact ⟨[], [], rfl, by simpa using comps_noslash hx⟩
  | cons y a ih =>
    obtain ⟨l, c, h1, h2⟩ := ih
    unfold comps at h1 h2 ⊢
    by_cases hy : y = '/'
    · refine ⟨[] :: l, c, ?_, ?_⟩
      · rw [List.splitOnP_cons_eq_if_modifyHead, h1]
        simp [hy]
      · rw [List.cons_append, List.splitOnP_cons_eq_if_modifyHead, h2]
        simp [hy]
    · rw [List.cons_append, List.splitOnP_cons_eq_if_modifyHead, List.splitOnP_cons_eq_if_modifyHead, h1, h2]
      simp only [hy, decide_false, Bool.false_eq_true, if_false]
      cases l with
      | nil => exact ⟨[], y :: c, rfl, rfl⟩
      | cons z l => exact ⟨(y :: z) :: l, c, rfl, rfl⟩

theorem intercalate_comps (p : Str) : ['/'].intercalate (comps p) = p := by
  induction p with
  | nil => rfl
  | cons y p ih =>
    unfold comps at ih ⊢
    rw [List.splitOnP_cons_eq_if_modifyHead]
    cases hs : List.splitOnP (fun x => decide (x = '/')) p with
    | nil => exact absurd hs (List.splitOnP_ne_nil _ _)
    | cons z zs =>
      rw [hs] at ih
      by_cases hy : y = '/'
      · simp only [hy, decide_true, if_true]
        rw [show ['/'].intercalate ([] :: z :: zs) = '/' :: ['/'].intercalate (z :: zs) by simp [List.intercalate], ih]
      · simp only [hy, decide_false, Bool.false_eq_true, if_false, List.modifyHead_cons]
        rw [← ih]
        cases zs with
        | nil => simp [List.intercalate]
        | cons w ws => simp [List.intercalate]

theorem HasExt.noslash {e s : Str} (h : HasExt e s) : '/' ∉ e := by
  have h1 := head_append_basename s
  unfold HasExt splitextRoot at h
  have h2 : basename s = stem (basename s) ++ '.' :: e := by
    rw [← h1] at h
    apply List.append_cancel_left (as := head s)
    rw [← List.append_assoc]
    conv_lhs => rw [h1]
    rw [← h1]
    exact h
  intro he
  exact basename_noslash s (by rw [h2]; simp [he])

/-- a normalised relative path consists of its components -/
theorem comps_normal {s : Str} (hrel : isabs s = false) (hn : normpath s = s) (hd : ¬ TwoDots s) (hdot : s ≠ ['.']) :
    ∀ c ∈ comps s, c ≠ [] ∧ c ≠ ['.'] := by
  have hdd : ∀ c ∈ comps s, c ≠ ['.', '.'] := by
    rintro c hc rfl
    exact hd (comps_infix hc)
  have hsne : s ≠ [] := by
    rintro rfl
    cases hn
  have hi : initialSlashes s = 0 := by
    rw [initialSlashes_eq, if_neg]
    intro h
    simp [isabs, List.head?_eq_getElem?, h] at hrel
  obtain ⟨f, hf⟩ : ∃ f, f = (comps s).filter (fun c => decide (c ≠ [] ∧ c ≠ ['.'])) := ⟨_, rfl⟩
  have hnorm : normpath s = if ['/'].intercalate f = [] then ['.'] else ['/'].intercalate f := by
    unfold normpath
    rw [if_neg hsne, hi, reduced_rel hdd, ← hf]
    rfl
  have hint : ['/'].intercalate f ≠ [] := by
    intro e
    rw [if_pos e, hn] at hnorm
    exact hdot hnorm
  rw [if_neg hint, hn] at hnorm
  have hfne : f ≠ [] := by
    rintro rfl
    exact hint rfl
  have hc : comps s = f := by
    rw [hnorm]
    refine comps_intercalate hfne ?_
    intro c hc
    rw [hf, List.mem_filter] at hc
    exact comps_noslash_mem hc.1
  intro c hmem
  rw [hc, hf, List.mem_filter] at hmem
  exact of_decide_eq_true hmem.2

theorem not_twoDots_append {a b : Str} (ha : ¬ TwoDots a) (hb : ¬ TwoDots b) (hl : a.getLast? ≠ some '.') :
    ¬ TwoDots (a ++ b) := by
  induction a with
  | nil => exact hb
  | cons x a ih =>
    intro h
    unfold TwoDots at *
    rw [List.cons_append, List.infix_cons_iff] at h
    rcases h with h | h
    · rw [List.cons_prefix_cons] at h
      obtain ⟨rfl, h⟩ := h
      cases a with
      | nil => exact hl rfl
      | cons y a =>
        rw [List.cons_append, List.cons_prefix_cons] at h
        exact ha ⟨[], a, by rw [← h.1]; rfl⟩
    · refine ih (fun h' => ha (List.infix_cons h')) ?_ h
      intro e
      cases a with
      | nil => cases e
      | cons y a => exact hl (by rw [List.getLast?_cons_cons]; exact e)

theorem below_inj {b : Str} {cs1 cs2 : List Str} (h1 : cs1 ≠ []) (hp1 : ∀ c ∈ cs1, Plain c) (h2 : cs2 ≠ [])
    (hp2 : ∀ c ∈ cs2, Plain c) (h : below b cs1 = below b cs2) : cs1 = cs2 := by
  have hr1 := (intercalate_last h1 hp1).2.2
  have hr2 := (intercalate_last h2 hp2).2.2
  have key : ['/'].intercalate cs1 = ['/'].intercalate cs2 := by
    unfold below at h
    split at h
    · exact h
    · unfold join at h
      rw [if_neg hr1, if_neg hr2] at h
      split at h
      · exact List.append_cancel_left h
      · exact (List.cons.inj (List.append_cancel_left h)).2
  rw [← comps_intercalate h1 (fun c hc => (hp1 c hc).noslash),
    ← comps_intercalate h2 (fun c hc => (hp2 c hc).noslash), key]

/-- C54, for sources of one extension.
* Absolute paths get different outputs.
* So do normalised relative paths without `..`. -/
theorem C54_partial {ext e s1 s2 : Str} (hext : GoodExt ext) (hext2 : ¬ TwoDots ('.' :: ext)) (builddir : Str)
    (he1 : HasExt e s1) (he2 : HasExt e s2)
    (hkind : (isabs s1 = true ∧ isabs s2 = true) ∨
      (isabs s1 = false ∧ normpath s1 = s1 ∧ ¬ TwoDots s1 ∧ isabs s2 = false ∧ normpath s2 = s2 ∧ ¬ TwoDots s2))
    (h : buildPath ext none builddir s1 = buildPath ext none builddir s2) : s1 = s2 := by
  have hroot : ∀ r1 r2 : Str, splitextRoot s1 ++ r1 = splitextRoot s2 ++ r1 → s1 = s2 := by
    intro r1 _ hh
    have := List.append_cancel_right hh
    unfold HasExt at he1 he2
    rw [he1, he2, this]
  rcases hkind with ⟨h1, h2⟩ | ⟨hrel1, hn1, hd1, hrel2, hn2, hd2⟩
  · simp only [buildPath, addPrefix, h1, h2, if_true, changeext] at h
    exact hroot _ [] (List.append_cancel_left h)
  · have main : ∀ s : Str, isabs s = false → normpath s = s → ¬ TwoDots s → HasExt e s →
        ∃ cs : List Str, cs ≠ [] ∧ (∀ c ∈ cs, Plain c) ∧ ['/'].intercalate cs = splitextRoot s ++ '.' :: ext ∧
          buildPath ext none builddir s = below builddir cs := by
      intro s hrel hn hd he
      have hdot : s ≠ ['.'] := by
        intro e0
        unfold HasExt at he
        rw [e0] at he
        have : splitextRoot ['.'] = ['.'] := by decide
        rw [this] at he
        simp at he
      have hl : (splitextRoot s).getLast? ≠ some '.' := by
        intro e0
        rw [List.getLast?_eq_some_iff] at e0
        obtain ⟨r, hr⟩ := e0
        apply hd
        unfold HasExt at he
        rw [hr] at he
        exact ⟨r, e, by rw [he]; simp⟩
      have hroot : ¬ TwoDots (splitextRoot s) := fun h' => hd (h'.trans (splitextRoot_prefix s).isInfix)
      have hnt : ¬ TwoDots (changeext s ext) := not_twoDots_append hroot hext2 hl
      have hhead : (replaceDots (changeext s ext)).head? ≠ some '/' := by
        rw [ne_eq, replaceDots_head, changeext_head]
        simpa [isabs] using hrel
      obtain ⟨x, hx1, hx2⟩ := hext.last s
      obtain ⟨cs, h1, h2, h3, h4⟩ := normpath_join (b := builddir) hhead (replaceDots_notTwo _) hx1 hx2
      refine ⟨cs, h1, h2, ?_, ?_⟩
      · rw [replaceDots_id hnt] at h3
        obtain ⟨l, c, e1, _⟩ := comps_append_noslash (x := []) (by simp) (splitextRoot s)
        obtain ⟨l', c', e1', e2⟩ := comps_append_noslash (x := '.' :: e)
          (by simp only [List.mem_cons, not_or]; exact ⟨by decide, he.noslash⟩) (splitextRoot s)
        obtain ⟨l'', c'', e1'', e3⟩ := comps_append_noslash (x := '.' :: ext)
          (by simp only [List.mem_cons, not_or]; exact ⟨by decide, hext.1⟩) (splitextRoot s)
        have hcs := comps_normal hrel hn hd hdot
        have hs : comps s = l' ++ [c' ++ '.' :: e] := by
          unfold HasExt at he
          conv_lhs => rw [he]
          exact e2
        have hll : l'' = l' := by
          rw [e1'] at e1''
          exact (List.append_inj_left' e1'' rfl).symm
        have hall : comps (changeext s ext) = cs := by
          rw [h3]
          symm
          rw [List.filter_eq_self]
          intro d hdm
          unfold changeext at hdm
          rw [e3, hll, List.mem_append, List.mem_singleton] at hdm
          rw [decide_eq_true_eq]
          rcases hdm with hdm | rfl
          · exact hcs d (by rw [hs]; simp [hdm])
          · obtain ⟨_, e', x', rfl, _⟩ := hext
            refine ⟨by simp, ?_⟩
            intro e0
            have := congrArg List.length e0
            simp at this
            omega
        rw [← hall]
        exact intercalate_comps _
      · simp only [buildPath, addPrefix, hrel, Bool.false_eq_true, if_false]
        exact h4
    obtain ⟨cs1, a1, a2, a3, a4⟩ := main s1 hrel1 hn1 hd1 he1
    obtain ⟨cs2, b1, b2, b3, b4⟩ := main s2 hrel2 hn2 hd2 he2
    rw [a4, b4] at h
    have := below_inj a1 a2 b1 b2 h
    rw [this, b3] at a3
    exact hroot _ [] a3.symm

/-- two different sources of one project meet the conditions -/
example : GoodExt "o".toList ∧ ¬ TwoDots ".o".toList ∧ HasExt "c".toList "src/a.b.c".toList ∧
    HasExt "c".toList "a.c".toList ∧ isabs "src/a.b.c".toList = false ∧ normpath "src/a.b.c".toList = "src/a.b.c".toList ∧
    ¬ TwoDots "src/a.b.c".toList ∧ isabs "a.c".toList = false ∧ normpath "a.c".toList = "a.c".toList ∧
    ¬ TwoDots "a.c".toList := by
  refine ⟨⟨by decide +kernel, [], 'o', rfl, by decide⟩, ?_⟩
  unfold TwoDots HasExt
  decide +kernel

/-- C54 is violated: different sources share an output when they differ only in the extension, when `..` of one
stands where the other has `__`, when one is absolute, or when they are different spellings of one path. -/
theorem C54_violated :
    buildPath "o".toList none "build".toList "a.c".toList = buildPath "o".toList none "build".toList "a.cpp".toList ∧
    buildPath "o".toList none "build".toList "../x.c".toList =
      buildPath "o".toList none "build".toList "__/x.c".toList ∧
    buildPath "o".toList none "build".toList "a..b.c".toList =
      buildPath "o".toList none "build".toList "a__b.c".toList ∧
    buildPath "o".toList none "build".toList "/x/a.c".toList =
      buildPath "o".toList none "build".toList "x/a.c".toList := by
  decide +kernel

/-! ### C55 -/

theorem basename_append {d b : Str} (hd : d = [] ∨ d.getLast? = some '/') (hb : '/' ∉ b) :
    head (d ++ b) = d ∧ basename (d ++ b) = b := by
  have h : ∀ x ∈ b.reverse, decide (x ≠ '/') = true := by
    intro x hx
    rw [decide_eq_true_eq]
    rintro rfl
    exact hb (List.mem_reverse.1 hx)
  rcases hd with rfl | hd
  · unfold head basename
    simp only [List.nil_append]
    constructor
    · rw [List.dropWhile_eq_nil_iff.2 h]; rfl
    · rw [List.takeWhile_eq_self_iff.2 h, List.reverse_reverse]
  · rw [List.getLast?_eq_some_iff] at hd
    obtain ⟨q, rfl⟩ := hd
    have e : (q ++ ['/'] ++ b).reverse = b.reverse ++ '/' :: q.reverse := by simp
    unfold head basename
    rw [e, List.dropWhile_append_of_pos h, List.takeWhile_append_of_pos h]
    simp

theorem stem_dot {r x : Str} (hx : '.' ∉ x) : stem (r ++ '.' :: x) = if r.any (· ≠ '.') then r else r ++ '.' :: x := by
  have h : ∀ c ∈ x.reverse, decide (c ≠ '.') = true := by
    intro c hc
    rw [decide_eq_true_eq]
    rintro rfl
    exact hx (List.mem_reverse.1 hc)
  unfold stem
  have e : (r ++ '.' :: x).reverse = x.reverse ++ '.' :: r.reverse := by simp
  rw [e, List.dropWhile_append_of_pos h]
  simp

/-- C55, `changeext`: only the part after the last dot of the file name is replaced, and only if something else than
dots precedes it; otherwise the extension is appended. -/
theorem C55_changeext {d : Str} (hd : d = [] ∨ d.getLast? = some '/') (newext : Str) :
    (∀ r x : Str, '/' ∉ r → '/' ∉ x → '.' ∉ x → (∃ c ∈ r, c ≠ '.') →
      changeext (d ++ r ++ '.' :: x) newext = d ++ r ++ '.' :: newext) ∧
    (∀ b : Str, '/' ∉ b → (∀ r x : Str, b = r ++ '.' :: x → '.' ∉ x → ∀ c ∈ r, c = '.') →
      changeext (d ++ b) newext = d ++ b ++ '.' :: newext) := by
  constructor
  · intro r x hr hx hxd ⟨c, hc, hne⟩
    have hb : '/' ∉ r ++ '.' :: x := by
      simp only [List.mem_append, List.mem_cons, not_or]
      exact ⟨hr, by decide, hx⟩
    unfold changeext splitextRoot
    rw [List.append_assoc d r ('.' :: x), (basename_append hd hb).1, (basename_append hd hb).2, stem_dot hxd, if_pos]
    rw [List.any_eq_true]
    exact ⟨c, hc, by simpa using hne⟩
  · intro b hb hno
    unfold changeext splitextRoot
    rw [(basename_append hd hb).1, (basename_append hd hb).2]
    congr 2
    by_cases hdot : '.' ∈ b
    · obtain ⟨r, x, rfl, hx⟩ : ∃ r x, b = r ++ '.' :: x ∧ '.' ∉ x := by
        have : '.' ∈ b.reverse := List.mem_reverse.2 hdot
        obtain ⟨s, t, hst, hs⟩ := List.eq_append_cons_of_mem this
        refine ⟨t.reverse, s.reverse, ?_, by simpa using hs⟩
        rw [← List.reverse_reverse b, hst]
        simp
      rw [stem_dot hx, if_neg]
      rw [List.any_eq_true]
      rintro ⟨c, hc, hne⟩
      have := hno r x rfl hx c hc
      simp [this] at hne
    · unfold stem
      have : b.reverse.dropWhile (· ≠ '.') = [] := by
        rw [List.dropWhile_eq_nil_iff]
        intro c hc
        rw [decide_eq_true_eq]
        rintro rfl
        exact hdot (List.mem_reverse.1 hc)
      rw [this]
      simp

/-- C55: one output for each source, in order; the output of a source only depends on that source -/
theorem C55_order (srcs : List Str) (ext : Str) (pre : Option Str) (builddir : Str) :
    (buildPaths srcs ext pre builddir).length = srcs.length ∧
    ∀ (i : Nat) (s : Str), srcs[i]? = some s →
      ∃ o, (buildPaths srcs ext pre builddir)[i]? = some o ∧ buildPaths [s] ext pre builddir = [o] := by
  refine ⟨by simp [buildPaths], ?_⟩
  intro i s hs
  refine ⟨buildPath ext pre builddir s, ?_, rfl⟩
  simp [buildPaths, hs]

theorem replaceDots_append : ∀ (a b : Str), a.getLast? ≠ some '.' →
    replaceDots (a ++ b) = replaceDots a ++ replaceDots b := by
  intro a
  fun_induction replaceDots a with
  | case1 r ih =>
    intro b h
    show '_' :: '_' :: replaceDots (r ++ b) = _
    rw [ih b]
    · rfl
    · intro e
      apply h
      cases r with
      | nil => cases e
      | cons x r => rw [List.getLast?_cons_cons, List.getLast?_cons_cons]; exact e
  | case2 c r hne ih =>
    intro b h
    have hr : r.getLast? ≠ some '.' := by
      intro e
      apply h
      cases r with
      | nil => cases e
      | cons x r => rw [List.getLast?_cons_cons]; exact e
    have : replaceDots (c :: r ++ b) = c :: replaceDots (r ++ b) := by
      show replaceDots (c :: (r ++ b)) = _
      conv_lhs => unfold replaceDots
      split
      · rename_i r' e
        obtain ⟨e1, e⟩ := List.cons.inj e
        cases r with
        | nil => rw [e1] at h; exact absurd rfl h
        | cons y r => exact absurd (by rw [(List.cons.inj e).1]) (hne r e1)
      · rename_i e
        obtain ⟨rfl, rfl⟩ := List.cons.inj e
        rfl
      · rename_i e; cases e
    rw [this, ih b hr]
    rfl
  | case3 => intro b _; rfl

/-- C55, extension: the output ends in the new extension if the source is absolute, or if its name without the old
extension does not end in a dot. -/
theorem C55_partial {ext : Str} (hext : GoodExt ext) (hext2 : ¬ TwoDots ('.' :: ext)) {pre : Option Str}
    (hpre : ∀ p, pre = some p → '/' ∉ p) (builddir s : Str)
    (h : isabs (addPrefix pre s) = true ∨ isabs s = false ∧ (splitextRoot (addPrefix pre s)).getLast? ≠ some '.') :
    ('.' :: ext) <:+ buildPath ext pre builddir s := by
  rcases h with h | ⟨hs, hl⟩
  · simp only [buildPath, h, if_true, changeext]
    exact ⟨builddir ++ splitextRoot (addPrefix pre s), by simp⟩
  · have h := addPrefix_head hpre hs
    unfold buildPath
    simp only [h, Bool.false_eq_true, if_false]
    have hhead : (replaceDots (changeext (addPrefix pre s) ext)).head? ≠ some '/' := by
      rw [ne_eq, replaceDots_head, changeext_head]
      simpa [isabs] using h
    obtain ⟨x, hx1, hx2⟩ := hext.last (addPrefix pre s)
    obtain ⟨cs, h1, h2, h3, h4⟩ := normpath_join (b := builddir) hhead (replaceDots_notTwo _) hx1 hx2
    rw [h4]
    unfold changeext at h3
    rw [replaceDots_append _ _ hl, replaceDots_id hext2] at h3
    obtain ⟨l, c, _, e2⟩ := comps_append_noslash (x := '.' :: ext)
      (by simp only [List.mem_cons, not_or]; exact ⟨by decide, hext.1⟩) (replaceDots (splitextRoot (addPrefix pre s)))
    rw [e2, List.filter_append] at h3
    have hkeep : [c ++ '.' :: ext].filter (fun c => decide (c ≠ [] ∧ c ≠ ['.'])) = [c ++ '.' :: ext] := by
      rw [List.filter_eq_self]
      intro d hd
      rw [List.mem_singleton] at hd
      subst hd
      rw [decide_eq_true_eq]
      obtain ⟨_, e', x', rfl, _⟩ := hext
      refine ⟨by simp, ?_⟩
      intro e0
      have := congrArg List.length e0
      simp at this
      omega
    rw [hkeep] at h3
    have hi : ('.' :: ext) <:+ ['/'].intercalate cs := by
      rw [h3, intercalate_snoc]
      split
      · exact ⟨c, rfl⟩
      · rename_i hne
        exact ⟨_ ++ '/' :: c, by simp only [List.append_assoc, List.cons_append]; rfl⟩
    unfold below
    split
    · exact hi
    · unfold join
      split
      · exact hi
      · split
        · exact hi.trans (List.suffix_append _ _)
        · exact hi.trans ((List.suffix_cons _ _).trans (List.suffix_append _ _))

/-- for `ui_` headers of the Qt support -/
example : buildPath "h".toList (some "ui_".toList) "build/ui".toList "src/win.ui".toList = "build/ui/src/ui_win.h".toList ∧
    isabs "src/win.ui".toList = false ∧
    (splitextRoot (addPrefix (some "ui_".toList) "src/win.ui".toList)).getLast? ≠ some '.' := by
  decide +kernel

theorem not_twoDots_slash {a b : Str} (ha : ¬ TwoDots a) (hb : ¬ TwoDots b) : ¬ TwoDots (a ++ '/' :: b) := by
  rw [show a ++ '/' :: b = (a ++ ['/']) ++ b by simp]
  refine not_twoDots_append ?_ hb (by simp)
  intro h
  unfold TwoDots at h
  rw [List.infix_concat_iff] at h
  rcases h with ⟨t, ht⟩ | h
  · have := congrArg List.getLast? ht
    simp at this
  · exact ha h

theorem not_twoDots_intercalate : ∀ {cs : List Str}, (∀ c ∈ cs, ¬ TwoDots c) → ¬ TwoDots (['/'].intercalate cs) := by
  intro cs
  induction cs with
  | nil => intro _ h; simp [TwoDots, List.intercalate] at h
  | cons c cs ih =>
    intro h
    cases cs with
    | nil => simpa [List.intercalate] using h c (by simp)
    | cons d cs =>
      rw [show ['/'].intercalate (c :: d :: cs) = c ++ '/' :: ['/'].intercalate (d :: cs) by simp [List.intercalate]]
      exact not_twoDots_slash (h c (by simp)) (ih fun c hc => h c (by simp [hc]))

theorem addPrefix_intercalate {ds : List Str} (hds : ∀ d ∈ ds, Plain d) {b : Str} (hb : '/' ∉ b) {p : Str} (hp : '/' ∉ p)
    (hpne : p ≠ []) : addPrefix (some p) (['/'].intercalate (ds ++ [b])) = ['/'].intercalate (ds ++ [p ++ b]) := by
  have hhead : (p ++ b).head? ≠ some '/' := by
    cases p with
    | nil => exact absurd rfl hpne
    | cons x p =>
      simp only [List.cons_append, List.head?_cons, ne_eq, Option.some.injEq]
      rintro rfl
      exact hp (by simp)
  have hadd : ∀ s, addPrefix (some p) s = join (dirname s) (p ++ basename s) := by
    intro s
    cases p with
    | nil => exact absurd rfl hpne
    | cons x p => rfl
  rw [hadd, intercalate_snoc, intercalate_snoc]
  by_cases hne : ds = []
  · rw [if_pos hne, if_pos hne]
    obtain ⟨h1, h2⟩ := basename_append (d := []) (Or.inl rfl) hb
    rw [List.nil_append] at h1 h2
    have : dirname b = [] := by unfold dirname; rw [h1]; rfl
    rw [this, h2]
    unfold join
    rw [if_neg hhead, if_pos (Or.inl rfl)]
    rfl
  · rw [if_neg hne, if_neg hne]
    obtain ⟨h1, h2, _⟩ := intercalate_last hne hds
    rw [dirname_snoc hb h2 h1]
    have h3 := (basename_append (d := ['/'].intercalate ds ++ ['/']) (Or.inr (by simp)) hb).2
    rw [List.append_assoc] at h3
    rw [show ['/'].intercalate ds ++ '/' :: b = ['/'].intercalate ds ++ (['/'] ++ b) from rfl, h3]
    unfold join
    rw [if_neg hhead, if_neg (by simp [h1, h2])]

/-- C55, the output of an ordinary relative source `d1/.../dn/stem.e`: in the build directory, below the same directories,
the file `stem.ext`, with the prefix before it. -/
theorem C55_name {ext : Str} (hext : GoodExt ext) {ds : List Str} (hds : ∀ d ∈ ds, Plain d ∧ ¬ TwoDots d)
    {stem e pre : Str} (hstem : '/' ∉ stem ∧ ∃ c ∈ stem, c ≠ '.') (he : '/' ∉ e ∧ '.' ∉ e) (hpre : '/' ∉ pre)
    (htwo : ¬ TwoDots (pre ++ stem ++ '.' :: ext)) (builddir : Str) :
    buildPath ext (some pre) builddir (['/'].intercalate (ds ++ [stem ++ '.' :: e])) =
      below builddir (ds ++ [pre ++ stem ++ '.' :: ext]) ∧
    (pre = [] → buildPath ext none builddir (['/'].intercalate (ds ++ [stem ++ '.' :: e])) =
      below builddir (ds ++ [stem ++ '.' :: ext])) := by
  have hplain : ∀ d ∈ ds, Plain d := fun d hd => (hds d hd).1
  have hb : '/' ∉ stem ++ '.' :: e := by
    simp only [List.mem_append, List.mem_cons, not_or]; exact ⟨hstem.1, by decide, he.1⟩
  have hadd : addPrefix (some pre) (['/'].intercalate (ds ++ [stem ++ '.' :: e])) =
      ['/'].intercalate (ds ++ [pre ++ stem ++ '.' :: e]) := by
    by_cases hp : pre = []
    · subst hp; rfl
    · rw [addPrefix_intercalate hplain hb hpre hp, List.append_assoc]
  have hr : '/' ∉ pre ++ stem := by simp only [List.mem_append, not_or]; exact ⟨hpre, hstem.1⟩
  have hex : ∃ c ∈ pre ++ stem, c ≠ '.' := by
    obtain ⟨c, h1, h2⟩ := hstem.2
    exact ⟨c, by simp [h1], h2⟩
  have hlast : Plain (pre ++ stem ++ '.' :: ext) := by
    obtain ⟨hx, e', x, rfl, hxd⟩ := hext
    refine ⟨by simp, ?_, ?_, ?_⟩
    · simp only [List.mem_append, List.mem_cons, not_or] at hr hx ⊢
      exact ⟨⟨hr.1, hr.2⟩, by decide, hx.1, hx.2⟩
    · intro h
      have := congrArg List.getLast? h
      rw [show pre ++ stem ++ '.' :: (e' ++ [x]) = (pre ++ stem ++ '.' :: e') ++ [x] by simp] at this
      simp only [List.getLast?_concat] at this
      exact hxd (by simpa using this)
    · intro h
      have := congrArg List.getLast? h
      rw [show pre ++ stem ++ '.' :: (e' ++ [x]) = (pre ++ stem ++ '.' :: e') ++ [x] by simp] at this
      simp only [List.getLast?_concat] at this
      exact hxd (by simpa using this)
  have hall : ∀ c ∈ ds ++ [pre ++ stem ++ '.' :: ext], Plain c := by
    intro c hc
    rcases List.mem_append.1 hc with hc | hc
    · exact hplain c hc
    · rw [List.mem_singleton] at hc; rw [hc]; exact hlast
  have hch : changeext (['/'].intercalate (ds ++ [pre ++ stem ++ '.' :: e])) ext =
      ['/'].intercalate (ds ++ [pre ++ stem ++ '.' :: ext]) := by
    rw [intercalate_snoc, intercalate_snoc]
    by_cases hne : ds = []
    · rw [if_pos hne, if_pos hne]
      have := (C55_changeext (d := []) (Or.inl rfl) ext).1 (pre ++ stem) e hr he.1 he.2 hex
      simpa using this
    · rw [if_neg hne, if_neg hne]
      have := (C55_changeext (d := ['/'].intercalate ds ++ ['/']) (Or.inr (by simp)) ext).1 (pre ++ stem) e hr he.1 he.2 hex
      simpa using this
  have hno : ¬ TwoDots (['/'].intercalate (ds ++ [pre ++ stem ++ '.' :: ext])) := by
    refine not_twoDots_intercalate fun c hc => ?_
    rcases List.mem_append.1 hc with hc | hc
    · exact (hds c hc).2
    · rw [List.mem_singleton] at hc; rw [hc]; exact htwo
  obtain ⟨-, -, hh⟩ := intercalate_last (cs := ds ++ [pre ++ stem ++ '.' :: ext]) (by simp) hall
  have hrel : isabs (['/'].intercalate (ds ++ [pre ++ stem ++ '.' :: e])) = false := by
    simp only [isabs, decide_eq_false_iff_not]
    rw [← changeext_head _ ext, hch]
    exact hh
  have hmain : buildPath ext (some pre) builddir (['/'].intercalate (ds ++ [stem ++ '.' :: e])) =
      below builddir (ds ++ [pre ++ stem ++ '.' :: ext]) := by
    unfold buildPath
    rw [hadd]
    simp only [hrel, Bool.false_eq_true, if_false]
    rw [hch, replaceDots_id hno]
    have hl : ∃ x, (['/'].intercalate (ds ++ [pre ++ stem ++ '.' :: ext])).getLast? = some x ∧ x ≠ '/' ∧ x ≠ '.' := by
      obtain ⟨hx, e', x, rfl, hxd⟩ := hext
      refine ⟨x, ?_, ?_, hxd⟩
      · rw [intercalate_snoc]
        rw [show pre ++ stem ++ '.' :: (e' ++ [x]) = (pre ++ stem ++ '.' :: e') ++ [x] by simp]
        split
        · exact List.getLast?_concat
        · rw [show ∀ a b : Str, a ++ '/' :: (b ++ [x]) = (a ++ '/' :: b) ++ [x] by simp]
          exact List.getLast?_concat
      · rintro rfl; exact hx (by simp)
    obtain ⟨x, hx1, hx2⟩ := hl
    obtain ⟨cs, _, _, h3, h4⟩ := normpath_join (b := builddir) hh hno hx1 hx2
    rw [h4, h3, comps_intercalate (by simp) (fun c hc => (hall c hc).noslash), List.filter_eq_self.2]
    intro c hc
    rw [decide_eq_true_eq]
    exact ⟨(hall c hc).ne, (hall c hc).dot⟩
  refine ⟨hmain, ?_⟩
  rintro rfl
  exact hmain

/-- the header that `uic` makes of `src/win.ui` -/
example : buildPath "h".toList (some "ui_".toList) "build/ui".toList "src/win.ui".toList =
    below "build/ui".toList ["src".toList, "ui_win.h".toList] ∧
    below "build/ui".toList ["src".toList, "ui_win.h".toList] = "build/ui/src/ui_win.h".toList ∧
    "src/win.ui".toList = ['/'].intercalate (["src".toList] ++ ["win".toList ++ '.' :: "ui".toList]) := by
  decide +kernel

/-- C55 is violated by a name that has two dots before its extension: the dot of the new extension is replaced. -/
theorem C55_violated : buildPath "o".toList none "build".toList "foo..c".toList = "build/foo__o".toList ∧
    ¬ (".o".toList <:+ buildPath "o".toList none "build".toList "foo..c".toList) := by
  decide +kernel

end Licant.Cxx
