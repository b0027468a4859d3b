/-
A directory of a file tree, copied to another place: C152.
-/
import Verif.Make.Tree
import Verif.Make.RelocatedCalls

set_option autoImplicit false

namespace Licant.Make.Fs
open Licant.Py Licant.Py.Path Licant.Core

variable {T T' : Tree} {d d' : List Str} {E E' : Env}

/-! ### specification -/

/-- the relative path with components `q` -/
def relPath (q : List Str) : Str := ['/'].intercalate q

/-- paths of things in the directory `d`, or of `d`: absolute, or relative to `d`; with no `.` or `..`, and no `~` -/
def Inside (d : List Str) (p : String) : Prop :=
  ∃ q : List Str, (∀ c ∈ q, Path.Plain c ∧ '~' ∉ c) ∧
    (p = String.ofList (absPath (d ++ q)) ∨ q ≠ [] ∧ p = String.ofList (relPath q))

/-- the path of the same thing after the directory `d` was copied to `d'`: relative paths stay as they are -/
def moveDir (d d' : List Str) (p : String) : String :=
  if p.toList = absPath d ∨ (absPath d ++ ['/']) <+: p.toList then
    String.ofList (absPath d' ++ p.toList.drop (absPath d).length)
  else p

/-- In the directory `d'` of the tree `T'` there is what is in the directory `d` of the tree `T`: files and directories only.  Outside the
directories the trees may be different. -/
structure CopiedDir (T T' : Tree) (d d' : List Str) : Prop where
  ne : d ≠ []
  ne' : d' ≠ []
  dir : T.get d = some .dir
  same : ∀ q, T'.get (d' ++ q) = T.get (d ++ q)
  nolink : ∀ q t, T.get (d ++ q) ≠ some (.link t)

/-! ### paths -/

theorem absPath_append (hd : d ≠ []) (q : List Str) :
    absPath (d ++ q) = absPath d ++ (if q = [] then [] else '/' :: relPath q) := by
  unfold absPath relPath
  rw [List.cons_append, List.cons.injEq]
  refine ⟨rfl, ?_⟩
  induction q using List.reverseRecOn with
  | nil => rw [List.append_nil, if_pos rfl, List.append_nil]
  | append_singleton q c ih =>
    rw [← List.append_assoc, intercalate_snoc, intercalate_snoc, if_neg (by simp [hd]), ih,
      if_neg (show ¬ q ++ [c] = [] by simp)]
    by_cases hq : q = []
    · rw [if_pos hq, if_pos hq, List.append_nil]
    · rw [if_neg hq, if_neg hq, List.append_assoc]
      rfl

theorem relPath_head {q : List Str} (hq : q ≠ []) (h : ∀ c ∈ q, Path.Plain c) : (relPath q).head? ≠ some '/' :=
  (intercalate_last hq h).2.2

theorem relPath_ne {q : List Str} (hq : q ≠ []) (h : ∀ c ∈ q, Path.Plain c) : relPath q ≠ [] :=
  (intercalate_last hq h).1

theorem moveDir_abs (hd : d ≠ []) (hd' : d' ≠ []) (q : List Str) :
    moveDir d d' (String.ofList (absPath (d ++ q))) = String.ofList (absPath (d' ++ q)) := by
  unfold moveDir
  rw [String.toList_ofList, absPath_append hd, absPath_append hd', if_pos, List.drop_left]
  by_cases hq : q = []
  · exact Or.inl (by simp [hq])
  · exact Or.inr ⟨relPath q, by simp [hq]⟩

theorem moveDir_rel {q : List Str} (hq : q ≠ []) (h : ∀ c ∈ q, Path.Plain c) :
    moveDir d d' (String.ofList (relPath q)) = String.ofList (relPath q) := by
  unfold moveDir
  rw [String.toList_ofList, if_neg]
  have hh := relPath_head hq h
  rintro (e | ⟨r, e⟩)
  · rw [e] at hh; exact hh rfl
  · rw [← e] at hh; exact hh rfl

/-- the parent of a relative path -/
theorem parent_relPath {q : List Str} {c : Str} (h : ∀ x ∈ q, Path.Plain x) (hc : Path.Plain c) :
    Path.parent (relPath (q ++ [c])) = if q = [] then ['.'] else relPath q := by
  unfold Path.parent relPath
  rw [intercalate_snoc]
  by_cases hq : q = []
  · subst hq
    rw [if_pos rfl, if_pos rfl]
    have hd : dirname c = [] := by
      have hh : head c = [] := by
        unfold head
        rw [List.reverse_eq_nil_iff, List.dropWhile_eq_nil_iff]
        intro x hx
        simp only [decide_eq_true_eq]
        rintro rfl
        exact hc.noslash (List.mem_reverse.1 hx)
      unfold dirname
      rw [hh]
      rfl
    rw [hd]
    rfl
  · rw [if_neg hq, if_neg hq]
    obtain ⟨h1, h2, h3⟩ := intercalate_last hq h
    rw [dirname_snoc hc.noslash h2 h1]
    have hi : initialSlashes (['/'].intercalate q) = 0 := by
      cases hh : ['/'].intercalate q with
      | nil => exact absurd hh h1
      | cons y ys =>
        have hy : y ≠ '/' := by
          rintro rfl
          exact h3 (by rw [hh]; rfl)
        unfold initialSlashes
        split <;> simp_all
    have hr : reduced (['/'].intercalate q) = q := by
      unfold reduced
      rw [hi, comps_intercalate hq (fun c hc => (h c hc).noslash), foldl_push_plain _ _ h]
      simp
    unfold normpath
    simp only [h1, if_false, hi, hr]
    simp [render, h1]

/-! ### the tree -/

theorem CopiedDir.symm (h : CopiedDir T T' d d') : CopiedDir T' T d' d where
  ne := h.ne'
  ne' := h.ne
  dir := by
    have := h.same []
    simp only [List.append_nil] at this
    rw [this, h.dir]
  same q := (h.same q).symm
  nolink q t := by rw [h.same]; exact h.nolink q t

theorem CopiedDir.there (h : CopiedDir T T' d d') (q : List Str) : There T' (d' ++ q) ↔ There T (d ++ q) := by
  unfold There
  rw [h.same]

theorem CopiedDir.solid (h : CopiedDir T T' d d') {q : List Str} (hq : ∀ c ∈ q, Path.Plain c) : Solid T (d ++ q) := by
  have hs : Solid T d := There.solid (Or.inr h.dir)
  refine ⟨?_, ?_⟩
  · intro c hc
    rcases List.mem_append.1 hc with hc | hc
    · exact hs.plain c hc
    · exact hq c hc
  · intro a b t e
    rcases List.append_eq_append_iff.1 e with ⟨r, rfl, _⟩ | ⟨r, rfl, _⟩
    · exact h.nolink r t
    · exact hs.nolink a r t rfl

theorem real_rel (h : CopiedDir T T' d d') {q : List Str} (hq : ∀ c ∈ q, Path.Plain c) : Real T d q (d ++ q) := by
  obtain ⟨m, h1, h2⟩ := real_split (real_of_solid (h.solid hq))
  rw [real_det h1 (real_of_solid (There.solid (Or.inr h.dir)))] at h2
  exact h2

theorem start_rel {q : List Str} (cwd : List Str) (hq : q ≠ []) (h : ∀ c ∈ q, Path.Plain c) : start cwd (relPath q) = cwd := by
  have := relPath_head hq h
  simp [start, isabs, this]

theorem comps_rel {q : List Str} (hq : q ≠ []) (h : ∀ c ∈ q, Path.Plain c) : comps (relPath q) = q :=
  comps_intercalate hq fun c hc => (h c hc).noslash

theorem canon_rel (h : CopiedDir T T' d d') (hE : Realises T d E) {q : List Str} (hq : q ≠ []) (hp : ∀ c ∈ q, Path.Plain c) :
    E.canon (String.ofList (relPath q)) = String.ofList (absPath (d ++ q)) := by
  apply hE.canon
  rw [String.toList_ofList, start_rel _ hq hp, comps_rel hq hp]
  exact real_rel h hp

theorem ex_rel (h : CopiedDir T T' d d') (hE : Realises T d E) {q : List Str} (hq : q ≠ []) (hp : ∀ c ∈ q, Path.Plain c) :
    E.ex (String.ofList (relPath q)) = true ↔ There T (d ++ q) := by
  rw [hE.ex, String.toList_ofList, start_rel _ hq hp, comps_rel hq hp]
  constructor
  · rintro ⟨_, m, hm⟩
    rw [real_det (real_rel h hp) (walk_real hm)]
    exact walk_there hm (Or.inr h.dir)
  · intro ht
    refine ⟨ofList_ne (relPath_ne hq hp), ?_⟩
    obtain ⟨m, h1, h2⟩ := walk_split (walk_there_self ht)
    rw [real_det (walk_real h1) (real_of_solid (There.solid (Or.inr h.dir)))] at h2
    exact ⟨_, h2⟩

theorem ex_absD (h : CopiedDir T T' d d') (hE : Realises T d E) {q : List Str} (hp : ∀ c ∈ q, Path.Plain c) :
    E.ex (String.ofList (absPath (d ++ q))) = true ↔ There T (d ++ q) :=
  ⟨hE.of_ex_abs (h.solid hp), hE.ex_abs⟩

theorem ex_dot (hd : T.get d = some .dir) (hE : Realises T d E) : E.ex "." = true := by
  rw [hE.ex]
  exact ⟨by decide, d, .skip hd (Or.inr rfl) .done⟩

theorem ex_up (hne : d ≠ []) (hd : T.get d = some .dir) (hE : Realises T d E) : E.ex (parent (String.ofList (absPath d))) = true := by
  have hs : Solid T d := There.solid (Or.inr hd)
  obtain ⟨r, c, rfl⟩ := (List.eq_nil_or_concat d).resolve_left hne
  rw [List.concat_eq_append] at *
  unfold parent
  rw [String.toList_ofList, parent_absPath (fun x hx => hs.plain x (by simp [hx])) (hs.plain c (by simp))]
  exact hE.ex_abs (Or.inr (T.parents _ _ (by rw [hd]; simp)))

theorem bool_iff {a b : Bool} (h : a = true ↔ b = true) : a = b := by
  cases a <;> cases b <;> simp_all

/-- the parents of the paths in a directory -/
theorem Inside.parent {p : String} (h : CopiedDir T T' d d') (hp : Inside d p) :
    (p = String.ofList (absPath d)) ∨ (Make.parent p = "." ∧ Make.parent (moveDir d d' p) = ".") ∨
    (Inside d (Make.parent p) ∧ Make.parent (moveDir d d' p) = moveDir d d' (Make.parent p)) := by
  obtain ⟨q, hq, hp⟩ := hp
  have hpl : ∀ c ∈ q, Path.Plain c := fun c hc => (hq c hc).1
  rcases List.eq_nil_or_concat q with rfl | ⟨r, c, rfl⟩
  · rcases hp with hp | hp
    · left; simpa using hp
    · exact absurd rfl hp.1
  rw [List.concat_eq_append] at *
  have hs : ∀ x ∈ d ++ r, Path.Plain x := (h.solid fun x hx => hpl x (by simp [hx])).plain
  have hs' : ∀ x ∈ d' ++ r, Path.Plain x := (h.symm.solid fun x hx => hpl x (by simp [hx])).plain
  have hr : ∀ x ∈ r, Path.Plain x := fun x hx => hpl x (by simp [hx])
  have hc : Path.Plain c := hpl c (by simp)
  right
  rcases hp with rfl | ⟨hne, rfl⟩
  · right
    have e : Make.parent (String.ofList (absPath (d ++ (r ++ [c])))) = String.ofList (absPath (d ++ r)) := by
      unfold Make.parent
      rw [String.toList_ofList, ← List.append_assoc, parent_absPath hs hc]
    have e' : Make.parent (String.ofList (absPath (d' ++ (r ++ [c])))) = String.ofList (absPath (d' ++ r)) := by
      unfold Make.parent
      rw [String.toList_ofList, ← List.append_assoc, parent_absPath hs' hc]
    rw [moveDir_abs h.ne h.ne', e, e', moveDir_abs h.ne h.ne']
    exact ⟨⟨r, fun x hx => hq x (by simp [hx]), Or.inl rfl⟩, rfl⟩
  · rw [moveDir_rel hne hpl]
    have e : Make.parent (String.ofList (relPath (r ++ [c]))) = String.ofList (if r = [] then ['.'] else relPath r) := by
      unfold Make.parent
      rw [String.toList_ofList, parent_relPath hr hc]
    rw [e]
    by_cases hr0 : r = []
    · left
      rw [if_pos hr0]
      exact ⟨rfl, rfl⟩
    · right
      rw [if_neg hr0, moveDir_rel hr0 hr]
      exact ⟨⟨r, fun x hx => hq x (by simp [hx]), Or.inr ⟨hr0, rfl⟩⟩, rfl⟩

theorem not_tilde {q : List Str} (h : ∀ c ∈ q, '~' ∉ c) : '~' ∉ relPath q := by
  intro hx
  rcases mem_intercalate hx with hx | ⟨c, hc, hx⟩
  · exact absurd hx (by decide)
  · exact h c hc hx

/-- What a process sees in a directory that was copied is what it sees in the original, with the paths replaced. -/
theorem tree_renames (h : CopiedDir T T' d d') (hE : Realises T d E) (hE' : Realises T' d' E')
    (hs : ∀ c ∈ d, '*' ∉ c) (hs' : ∀ c ∈ d', '*' ∉ c)
    (hh : ∀ p : String, p.toList.head? ≠ some '~' → E.home p = p ∧ E'.home p = p)
    (hg : ∀ p, Inside d p → '*' ∈ p.toList → E'.glob (moveDir d d' p) = (E.glob p).map (moveDir d d') ∧ ∀ q ∈ E.glob p, Inside d q) :
    Renames (moveDir d d') (Inside d) E E' where
  inj := by
    rintro p p' ⟨q, hq, hp⟩ ⟨q', hq', hp'⟩ e
    have hpl : ∀ c ∈ q, Path.Plain c := fun c hc => (hq c hc).1
    have hpl' : ∀ c ∈ q', Path.Plain c := fun c hc => (hq' c hc).1
    rcases hp with rfl | ⟨hne, rfl⟩ <;> rcases hp' with rfl | ⟨hne', rfl⟩
    · rw [moveDir_abs h.ne h.ne', moveDir_abs h.ne h.ne'] at e
      have := absPath_inj (h.symm.solid hpl).plain (h.symm.solid hpl').plain (ofList_inj e)
      rw [List.append_cancel_left this]
    · rw [moveDir_abs h.ne h.ne', moveDir_rel hne' hpl'] at e
      exact absurd (by rw [← ofList_inj e]; rfl) (relPath_head hne' hpl')
    · rw [moveDir_abs h.ne h.ne', moveDir_rel hne hpl] at e
      exact absurd (by rw [ofList_inj e]; rfl) (relPath_head hne hpl)
    · rwa [moveDir_rel hne hpl, moveDir_rel hne' hpl'] at e
  canon := by
    rintro p ⟨q, hq, hp⟩
    have hpl : ∀ c ∈ q, Path.Plain c := fun c hc => (hq c hc).1
    rcases hp with rfl | ⟨hne, rfl⟩
    · rw [hE.canon_abs (h.solid hpl), moveDir_abs h.ne h.ne', hE'.canon_abs (h.symm.solid hpl)]
      exact ⟨⟨q, hq, Or.inl rfl⟩, rfl⟩
    · rw [canon_rel h hE hne hpl, moveDir_rel hne hpl, canon_rel h.symm hE' hne hpl, moveDir_abs h.ne h.ne']
      exact ⟨⟨q, hq, Or.inl rfl⟩, rfl⟩
  ex := by
    intro p hp
    exact ex_moved p hp
  exDir := by
    intro p hp
    rcases hp.parent h with rfl | ⟨e1, e2⟩ | ⟨e1, e2⟩
    · have := moveDir_abs h.ne h.ne' []
      rw [List.append_nil, List.append_nil] at this
      rw [this, ex_up h.ne h.dir hE, ex_up h.ne' h.symm.dir hE']
    · rw [e1, e2, ex_dot h.dir hE, ex_dot h.symm.dir hE']
    · rw [e2, ex_moved _ e1]
  dir := by
    intro p hp hno
    rcases hp.parent h with rfl | ⟨e1, e2⟩ | ⟨e1, e2⟩
    · rw [ex_up h.ne h.dir hE] at hno; cases hno
    · rw [e1, ex_dot h.dir hE] at hno; cases hno
    · exact ⟨e1, e2⟩
  home := by
    intro p hp
    have hp0 := hp
    obtain ⟨q, hq, hp⟩ := hp
    have hpl : ∀ c ∈ q, Path.Plain c := fun c hc => (hq c hc).1
    have key : p.toList.head? ≠ some '~' ∧ (moveDir d d' p).toList.head? ≠ some '~' := by
      rcases hp with rfl | ⟨hne, rfl⟩
      · rw [moveDir_abs h.ne h.ne', String.toList_ofList, String.toList_ofList]
        exact ⟨by simp [absPath], by simp [absPath]⟩
      · rw [moveDir_rel hne hpl, String.toList_ofList]
        have : (relPath q).head? ≠ some '~' := fun e => not_tilde (fun c hc => (hq c hc).2) (List.mem_of_head? e)
        exact ⟨this, this⟩
    rw [(hh p key.1).1, (hh _ key.2).2]
    exact ⟨hp0, rfl⟩
  star := by
    rintro p ⟨q, hq, hp⟩
    have hpl : ∀ c ∈ q, Path.Plain c := fun c hc => (hq c hc).1
    rcases hp with rfl | ⟨hne, rfl⟩
    · have hno : ∀ {l : List Str}, (∀ c ∈ l, '*' ∉ c) → '*' ∉ absPath l := by
        intro l hl hx
        rcases List.mem_cons.1 hx with hx | hx
        · exact absurd hx (by decide)
        · rcases mem_intercalate hx with hx | ⟨c, hc, hx⟩
          · exact absurd hx (by decide)
          · exact hl c hc hx
      rw [moveDir_abs h.ne h.ne', String.toList_ofList, String.toList_ofList, absPath_append h.ne, absPath_append h.ne',
        List.mem_append, List.mem_append]
      simp [hno hs, hno hs']
    · rw [moveDir_rel hne hpl]
  glob := hg
where
  ex_moved : ∀ p, Inside d p → E'.ex (moveDir d d' p) = E.ex p := by
    rintro p ⟨q, hq, hp⟩
    have hpl : ∀ c ∈ q, Path.Plain c := fun c hc => (hq c hc).1
    apply bool_iff
    rcases hp with rfl | ⟨hne, rfl⟩
    · rw [moveDir_abs h.ne h.ne', ex_absD h.symm hE' hpl, ex_absD h hE hpl, h.there]
    · rw [moveDir_rel hne hpl, ex_rel h.symm hE' hne hpl, ex_rel h hE hne hpl, h.there]

/-! ### ancestors -/

theorem dropLast_iter (l : List Str) : ∀ k, List.dropLast^[k] l = l.take (l.length - k) := by
  intro k
  induction k with
  | zero => simp
  | succ k ih =>
    rw [Function.iterate_succ_apply', ih, List.dropLast_eq_take, List.length_take, List.take_take]
    congr 1
    omega

theorem plain_take {l : List Str} (h : ∀ c ∈ l, Path.Plain c) (k : Nat) : ∀ c ∈ l.take k, Path.Plain c :=
  fun c hc => h c (List.mem_of_mem_take hc)

theorem parents_abs : ∀ (k : Nat) {l : List Str}, (∀ c ∈ l, Path.Plain c) → Path.parent^[k] (absPath l) = absPath (l.take (l.length - k)) := by
  intro k
  induction k with
  | zero => intro l _; simp
  | succ k ih =>
    intro l h
    rw [Function.iterate_succ_apply]
    rcases List.eq_nil_or_concat l with rfl | ⟨r, c, rfl⟩
    · rw [show Path.parent (absPath []) = absPath [] by decide, ih h]
      simp
    · rw [List.concat_eq_append] at *
      rw [parent_absPath (fun x hx => h x (by simp [hx])) (h c (by simp)), ih fun x hx => h x (by simp [hx])]
      congr 1
      rw [List.length_append, List.length_singleton, List.take_append_of_le_length (by omega)]
      congr 1
      omega

theorem parents_rel : ∀ (k : Nat) {l : List Str}, (∀ c ∈ l, Path.Plain c) → l ≠ [] → (Path.parent^[k] (relPath l)).head? ≠ some '/' := by
  intro k
  have hdot : ∀ k, Path.parent^[k] ['.'] = ['.'] := by
    intro k
    induction k with
    | zero => rfl
    | succ k ih => rw [Function.iterate_succ_apply, show Path.parent ['.'] = ['.'] by decide, ih]
  induction k with
  | zero => intro l h hl; exact relPath_head hl h
  | succ k ih =>
    intro l h hl
    rw [Function.iterate_succ_apply]
    obtain ⟨r, c, rfl⟩ := (List.eq_nil_or_concat l).resolve_left hl
    rw [List.concat_eq_append] at *
    have hr : ∀ x ∈ r, Path.Plain x := fun x hx => h x (by simp [hx])
    rw [parent_relPath hr (h c (by simp))]
    split
    · rw [hdot]; decide
    · rename_i hr0
      exact ih hr hr0

/-- Copying a directory puts no path of it above another one. -/
theorem tree_keepsAbove (h : CopiedDir T T' d d') : KeepsAbove (moveDir d d') (Inside d) := by
  rintro p q ⟨a, ha, hp⟩ ⟨b, hb, hq⟩ ⟨i, hi⟩
  have hpa : ∀ c ∈ a, Path.Plain c := fun c hc => (ha c hc).1
  have hpb : ∀ c ∈ b, Path.Plain c := fun c hc => (hb c hc).1
  have hi := congrArg String.toList hi
  unfold anc at hi
  rw [toList_iterate] at hi
  rcases hp with rfl | ⟨hna, rfl⟩
  · rw [moveDir_abs h.ne h.ne', String.toList_ofList, parents_abs _ (h.symm.solid hpa).plain] at hi
    rcases hq with rfl | ⟨hnb, rfl⟩
    · rw [moveDir_abs h.ne h.ne', String.toList_ofList] at hi
      have e := absPath_inj (h.symm.solid hpb).plain (plain_take (h.symm.solid hpa).plain _) hi
      have hlen := congrArg List.length e
      rw [List.length_take, List.length_append, List.length_append] at hlen
      have hne' : 0 < d'.length := List.length_pos_iff.2 h.ne'
      have hk : i + 1 ≤ a.length := by omega
      have e1 : d'.length + a.length - (i + 1) = d'.length + (a.length - (i + 1)) := by omega
      rw [List.length_append, e1, List.take_length_add_append, List.append_cancel_left_eq] at e
      refine ⟨i, ?_⟩
      apply String.toList_injective
      unfold anc
      rw [toList_iterate, String.toList_ofList, String.toList_ofList, parents_abs _ (h.solid hpa).plain, List.length_append]
      have e2 : d.length + a.length - (i + 1) = d.length + (a.length - (i + 1)) := by omega
      rw [e2, List.take_length_add_append, ← e]
    · rw [moveDir_rel hnb hpb, String.toList_ofList] at hi
      exact absurd (by rw [hi]; rfl) (relPath_head hnb hpb)
  · rw [moveDir_rel hna hpa, String.toList_ofList] at hi
    have hh := parents_rel (i + 1) hpa hna
    rcases hq with rfl | ⟨hnb, rfl⟩
    · rw [moveDir_abs h.ne h.ne', String.toList_ofList] at hi
      rw [← hi] at hh
      exact absurd rfl hh
    · rw [moveDir_rel hnb hpb, String.toList_ofList] at hi
      refine ⟨i, ?_⟩
      apply String.toList_injective
      unfold anc
      rw [toList_iterate, String.toList_ofList, String.toList_ofList, hi]

/-! ### builds -/

theorem licant_inside : ∀ n ∈ licantNames, Inside d n ∧ moveDir d d' n = n := by
  have hp : ∀ n ∈ licantNames, (n.toList ≠ [] ∧ '/' ∉ n.toList ∧ n.toList ≠ ['.'] ∧ n.toList ≠ ['.', '.']) ∧ '~' ∉ n.toList := by
    decide +kernel
  intro n hn
  obtain ⟨⟨h1, h2, h3, h4⟩, h5⟩ := hp n hn
  have e : n = String.ofList (relPath [n.toList]) := by simp [relPath, List.intercalate]
  have h6 : ∀ c ∈ [n.toList], Path.Plain c ∧ '~' ∉ c := by
    intro c hc
    rw [List.mem_singleton] at hc
    subst hc
    exact ⟨⟨h1, h2, h3, h4⟩, h5⟩
  refine ⟨⟨[n.toList], h6, Or.inr ⟨by simp, e⟩⟩, ?_⟩
  rw [e]
  exact moveDir_rel (by simp) fun c hc => (h6 c hc).1

/-- **C152** for a directory in a file tree.  Everything in the directory `d` is copied to `d'`, in another tree or in the same one, where
everything else may be different.  A build script that describes files in `d` in a reasonable way (as in C88), run in `d`, succeeds in `d'`,
too, with absolute paths replaced.  If both are built successfully, the same commands are run, and the files have the same contents
afterwards. -/
theorem C152_directory {α : Type} {lim : Nat} (h : CopiedDir T T' d d') (hT : NoDangling T) (hT' : NoDangling T')
    (hE : Realises T d E) (hE' : Realises T' d' E') (hs : ∀ c ∈ d, '*' ∉ c) (hs' : ∀ c ∈ d', '*' ∉ c)
    (hh : ∀ p : String, p.toList.head? ≠ some '~' → E.home p = p ∧ E'.home p = p)
    (hg : ∀ p, Inside d p → '*' ∈ p.toList → E'.glob (moveDir d d' p) = (E.glob p).map (moveDir d d') ∧ ∀ q ∈ E.glob p, Inside d q)
    {cs : List CallD} (hG : ∀ cl ∈ cs, ∀ n ∈ cl.names, Inside d n) {own own' : MReg} {w : World}
    (hrs : ReasonableSeq E lim ⟨licantReg, own⟩ cs) (hw : cs.foldlM (callD E lim) ⟨licantReg, own⟩ = .ok w) :
    ∃ w', (cs.map (CallD.ren (moveDir d d'))).foldlM (callD E' lim) ⟨licantReg, own'⟩ = .ok w' ∧
    ∀ {P P' : Proj α} (_ : P.reg = w.dflt.reg) (_ : P.kind = w.dflt.kind) (_ : P'.reg = w'.dflt.reg) (_ : P'.kind = w'.dflt.kind)
    (_ : ∀ p q, q ∈ P.parents p → IsAnc q p) (_ : ∀ p q, q ∈ P'.parents p → IsAnc q p)
    (_ : ∀ o < w.dflt.reg.next, P'.force o = P.force o ∧ P'.upd o = P.upd o ∧ ∀ f, P'.cmd o f = P.cmd o fun p => f (moveDir d d' p))
    {name : String} (_ : Inside d name) {root root' : Nat} (_ : Resolves E.canon P.reg name root)
    (_ : Resolves E'.canon P'.reg (moveDir d d' name) root') (_ : P.kind root ≠ .other) {fs fs' : FS α}
    (_ : ∀ o, Closure E.canon P.reg root o → IsPath P o → fs' (moveDir d d' (P.path o)) = fs (P.path o))
    {cache cache' : FileCache} (_ : Accurate P fs cache) (_ : Accurate P' fs' cache')
    {B : Invocation P E.canon root fs cache} {B' : Invocation P' E'.canon root' fs' cache'} {clock clock' : Nat}
    {tr tr' : List (Ev α)} {s s' : St α} (_ : B.Run clock tr s) (_ : B'.Run clock' tr' s')
    (_ : s.Succeeded) (_ : s'.Succeeded),
    (∀ p, (∃ o ∈ B.commands tr, moveDir d d' (P.path o) = p) ↔ (∃ o ∈ B'.commands tr', P'.path o = p)) ∧
    (Functional P E.canon → Functional P' E'.canon → Faithful B clock tr → Faithful B' clock' tr' → Productive B tr → Productive B' tr' →
      ∀ o, Closure E.canon P.reg root o → P.kind o = .file ∨ P.kind o = .source →
        contents s'.fs (moveDir d d' (P.path o)) = contents s.fs (P.path o)) :=
  C152_project (tree_renames h hE hE' hs hs' hh hg) (tree_keepsAbove h) (hE.sane hT h.dir) (hE'.sane hT' h.symm.dir) licant_inside hG hrs hw

/-- a script with relative paths is the same script in the other place -/
theorem ren_relative {cs : List CallD}
    (h : ∀ cl ∈ cs, ∀ n ∈ cl.names, ∃ q : List Str, q ≠ [] ∧ (∀ c ∈ q, Path.Plain c) ∧ n = String.ofList (relPath q)) :
    cs.map (CallD.ren (moveDir d d')) = cs := by
  have key : ∀ n, (∃ q : List Str, q ≠ [] ∧ (∀ c ∈ q, Path.Plain c) ∧ n = String.ofList (relPath q)) → moveDir d d' n = n := by
    rintro n ⟨q, h1, h2, rfl⟩
    exact moveDir_rel h1 h2
  have kl : ∀ l : List String, (∀ n ∈ l, moveDir d d' n = n) → l.map (moveDir d d') = l := by
    intro l hl
    exact (List.map_congr_left (g := id) hl).trans (List.map_id l)
  refine (List.map_congr_left (g := id) ?_).trans (List.map_id cs)
  intro cl hcl
  have hk : ∀ n ∈ cl.names, moveDir d d' n = n := fun n hn => key n (h cl hcl n hn)
  cases cl with
  | source src => simp [CallD.ren, hk src (by simp [CallD.names])]
  | makefile t deps =>
    simp [CallD.ren, hk t (by simp [CallD.names]), kl deps fun n hn => hk n (by simp [CallD.names, hn])]
  | copy t src adddeps =>
    simp [CallD.ren, hk t (by simp [CallD.names]), hk src (by simp [CallD.names]), kl adddeps fun n hn => hk n (by simp [CallD.names, hn])]
  | fileset t targets deps =>
    simp [CallD.ren, hk t (by simp [CallD.names]), kl targets fun n hn => hk n (by simp [CallD.names, hn]),
      kl deps fun n hn => hk n (by simp [CallD.names, hn])]
  | target t deps upd act =>
    simp [CallD.ren, hk t (by simp [CallD.names]), kl deps fun n hn => hk n (by simp [CallD.names, hn])]
  | makedir dir => simp [CallD.ren, hk dir (by simp [CallD.names])]

/-! ### a tree without links, as a function -/

/-- `os.path.realpath` where there are no links -/
def flatReal : List Str → List Str → List Str
  | d, [] => d
  | d, c :: rest =>
    if c = [] ∨ c = ['.'] then flatReal d rest else if c = ['.', '.'] then flatReal d.dropLast rest else flatReal (d ++ [c]) rest

/-- `os.path.exists` where there are no links -/
def flatEx (T : Tree) : List Str → List Str → Bool
  | _, [] => true
  | d, c :: rest =>
    if c = [] ∨ c = ['.'] then decide (T.get d = some .dir) && flatEx T d rest
    else if c = ['.', '.'] then decide (T.get d = some .dir) && flatEx T d.dropLast rest
    else (T.get (d ++ [c])).isSome && flatEx T (d ++ [c]) rest

/-- what a process in `cwd` sees of a tree without links; there are no patterns -/
def flatEnv (T : Tree) (cwd : List Str) : Env where
  canon p := String.ofList (absPath (flatReal (start cwd p.toList) (comps p.toList)))
  ex p := decide (p ≠ "") && flatEx T (start cwd p.toList) (comps p.toList)
  home p := p
  glob _ := []

theorem flatReal_of {d rest q : List Str} (hT : ∀ q t, T.get q ≠ some (.link t)) (h : Real T d rest q) : flatReal d rest = q := by
  induction h with
  | done => rfl
  | skip hc _ ih => rw [flatReal, if_pos hc, ih]
  | up _ ih => rw [flatReal, if_neg (by decide), if_pos rfl, ih]
  | step hp _ _ ih => rw [flatReal, if_neg (by rintro (e | e); exacts [hp.ne e, hp.dot e]), if_neg hp.dotdot, ih]
  | link hl _ _ _ _ => exact absurd hl (hT _ _)

theorem flatEx_iff (hT : ∀ q t, T.get q ≠ some (.link t)) : ∀ (rest d : List Str), flatEx T d rest = true ↔ ∃ q, Walk T d rest q := by
  intro rest
  induction rest with
  | nil => intro d; exact ⟨fun _ => ⟨d, .done⟩, fun _ => rfl⟩
  | cons c rest ih =>
    intro d
    constructor
    · intro h
      rw [flatEx] at h
      split at h
      · rename_i hc
        rw [Bool.and_eq_true, decide_eq_true_eq, ih] at h
        obtain ⟨h1, q, h2⟩ := h
        exact ⟨q, .skip h1 hc h2⟩
      · split at h
        · rename_i hc
          subst hc
          rw [Bool.and_eq_true, decide_eq_true_eq, ih] at h
          obtain ⟨h1, q, h2⟩ := h
          exact ⟨q, .up h1 h2⟩
        · rw [Bool.and_eq_true, ih] at h
          obtain ⟨h1, q, h2⟩ := h
          refine ⟨q, .step ?_ h2⟩
          obtain ⟨n, hn⟩ := Option.isSome_iff_exists.1 h1
          cases n with
          | file => exact Or.inl hn
          | dir => exact Or.inr hn
          | link t => exact absurd hn (hT _ _)
    · rintro ⟨q, h⟩
      rw [flatEx]
      cases h with
      | skip h1 hc h2 => rw [if_pos hc, (ih _).2 ⟨q, h2⟩, h1]; rfl
      | up h1 h2 => rw [if_neg (by decide), if_pos rfl, (ih _).2 ⟨q, h2⟩, h1]; rfl
      | step h1 h2 =>
        have hne : T.get (d ++ [c]) ≠ none := There.ne h1
        have hp := T.names _ _ hne
        rw [if_neg (by rintro (e | e); exacts [hp.ne e, hp.dot e]), if_neg hp.dotdot, (ih _).2 ⟨q, h2⟩]
        rcases h1 with h1 | h1 <;> rw [h1] <;> rfl
      | link hl _ _ => exact absurd hl (hT _ _)

theorem flatEnv_realises (hT : ∀ q t, T.get q ≠ some (.link t)) (cwd : List Str) : Realises T cwd (flatEnv T cwd) where
  canon p q h := by simp only [flatEnv, flatReal_of hT h]
  ex p := by simp only [flatEnv, Bool.and_eq_true, decide_eq_true_eq, flatEx_iff hT]
  home _ := rfl

end Licant.Make.Fs
