/-
Normal forms of paths: what `normpath` and `dirname` do to the components.
-/
import Verif.Cxx.Paths

set_option autoImplicit false

namespace Licant.Py.Path
open Licant.Cxx

/-- the components of a path in normal form: `..` only at the beginning of a relative path -/
def Normal (abs : Bool) (cs : List Str) : Prop :=
  ∃ (k : Nat) (ds : List Str), cs = List.replicate k ['.', '.'] ++ ds ∧ (∀ d ∈ ds, Plain d) ∧ (abs = true → k = 0)

theorem Normal.mem {abs : Bool} {cs : List Str} (h : Normal abs cs) : ∀ c ∈ cs, c ≠ [] ∧ '/' ∉ c := by
  obtain ⟨k, ds, rfl, hp, _⟩ := h
  intro c hc
  rcases List.mem_append.1 hc with hc | hc
  · rw [(List.mem_replicate.1 hc).2]; exact ⟨by decide, by decide⟩
  · exact ⟨(hp c hc).ne, (hp c hc).noslash⟩

theorem Normal.dropLast {abs : Bool} {cs : List Str} (h : Normal abs cs) : Normal abs cs.dropLast := by
  obtain ⟨k, ds, rfl, hp, hk⟩ := h
  rcases List.eq_nil_or_concat ds with rfl | ⟨ds', d, rfl⟩
  · refine ⟨k - 1, [], ?_, by simp, fun h => by rw [hk h]⟩
    simp [List.dropLast_replicate]
  · rw [List.concat_eq_append] at hp ⊢
    refine ⟨k, ds', ?_, fun d hd => hp d (by simp [hd]), hk⟩
    rw [← List.append_assoc, List.dropLast_concat]

theorem push_normal {abs : Bool} {st : List Str} (h : Normal abs st.reverse) {c : Str} (hc : '/' ∉ c) :
    Normal abs (push abs st c).reverse := by
  unfold push
  split
  · exact h
  · rename_i h1
    rw [not_or] at h1
    obtain ⟨k, ds, he, hp, hk⟩ := id h
    by_cases hdd : c = ['.', '.']
    · subst hdd
      rcases List.eq_nil_or_concat ds with rfl | ⟨ds', d, rfl⟩
      · have hst : st = List.replicate k ['.', '.'] := by
          rw [List.append_nil] at he
          rw [← List.reverse_reverse st, he, List.reverse_replicate]
        by_cases habs : abs = true
        · have hk0 := hk habs
          subst hk0
          rw [hst]
          rw [if_neg (by simp [habs])]
          exact ⟨0, [], by simp, by simp, fun _ => rfl⟩
        · rw [if_pos]
          · refine ⟨k + 1, [], ?_, by simp, fun h => absurd h habs⟩
            rw [hst, List.reverse_cons, List.reverse_replicate, List.append_nil, List.replicate_succ']
          · cases k with
            | zero => exact Or.inr (Or.inl ⟨by simpa using habs, by simpa using hst⟩)
            | succ k => exact Or.inr (Or.inr (by rw [hst]; rfl))
      · rw [List.concat_eq_append] at hp he
        have hst : st = d :: (List.replicate k ['.', '.'] ++ ds').reverse := by
          rw [← List.reverse_reverse st, he, ← List.append_assoc, List.reverse_append]
          rfl
        have hd := hp d (by simp)
        rw [hst, if_neg]
        · rw [List.tail_cons, List.reverse_reverse]
          exact ⟨k, ds', rfl, fun x hx => hp x (by simp [hx]), hk⟩
        · simp [hd.dotdot]
    · rw [if_pos (Or.inl hdd)]
      refine ⟨k, ds ++ [c], ?_, ?_, hk⟩
      · rw [List.reverse_cons, he, List.append_assoc]
      · intro x hx
        rcases List.mem_append.1 hx with hx | hx
        · exact hp x hx
        · rw [List.mem_singleton] at hx; rw [hx]; exact ⟨h1.1, hc, h1.2, hdd⟩

theorem foldl_push_isNormal {abs : Bool} : ∀ (cs st : List Str), (∀ c ∈ cs, '/' ∉ c) → Normal abs st.reverse →
    Normal abs (cs.foldl (push abs) st).reverse := by
  intro cs
  induction cs with
  | nil => intro st _ h; exact h
  | cons c cs ih =>
    intro st hc h
    exact ih _ (fun x hx => hc x (by simp [hx])) (push_normal h (hc c (by simp)))

theorem isabs_iff (p : Str) : isabs p = decide (initialSlashes p ≠ 0) := by
  unfold isabs initialSlashes
  split <;> rename_i h
  · simp
  · simp
  · simp
  · cases p with
    | nil => simp
    | cons x p =>
      have : x ≠ '/' := by rintro rfl; exact h p rfl
      simp [this]

theorem reduced_normal (p : Str) : Normal (isabs p) (reduced p) := by
  unfold reduced
  rw [isabs_iff]
  exact foldl_push_isNormal _ _ (fun c hc => comps_noslash_mem hc) ⟨0, [], rfl, by simp, fun _ => rfl⟩

/-- components in normal form stay as they are -/
theorem foldl_push_id {abs : Bool} {cs : List Str} (h : Normal abs cs) : cs.foldl (push abs) [] = cs.reverse := by
  obtain ⟨k, ds, rfl, hp, hk⟩ := h
  rw [List.foldl_append, foldl_push_plain _ _ hp, List.reverse_append]
  congr 1
  cases abs with
  | true => rw [hk rfl]; rfl
  | false =>
    rw [List.reverse_replicate]
    clear hk
    induction k with
    | zero => rfl
    | succ k ih =>
      rw [List.replicate_succ', List.foldl_append, ih]
      cases k with
      | zero => rfl
      | succ k =>
        rw [← List.replicate_succ']
        simp [push, List.replicate_succ]

theorem comps_slash (p : Str) : comps ('/' :: p) = [] :: comps p := by
  simpa using comps_cons (c := []) (p := p) (by simp)

theorem comps_slashes_append (k : Nat) (p : Str) : comps (List.replicate k '/' ++ p) = List.replicate k [] ++ comps p := by
  induction k with
  | zero => rfl
  | succ k ih => rw [List.replicate_succ, List.replicate_succ, List.cons_append, comps_slash, ih]; rfl

/-- empty components and dots, which a walk along a path passes over -/
def Skips (l : List Str) : Prop := ∀ c ∈ l, c = [] ∨ c = ['.']

theorem comps_render {k : Nat} {cs : List Str} (h : ∀ c ∈ cs, c ≠ [] ∧ '/' ∉ c) :
    comps (render k cs) = List.replicate k [] ++ if cs = [] then [[]] else cs := by
  unfold render
  rw [comps_slashes_append]
  split
  · rename_i h0; subst h0; rfl
  · rename_i h0; rw [comps_intercalate h0 fun c hc => (h c hc).2]

theorem initialSlashes_le (p : Str) : initialSlashes p ≤ 2 := by
  unfold initialSlashes
  split <;> omega

theorem render_head {cs : List Str} (h : ∀ c ∈ cs, c ≠ [] ∧ '/' ∉ c) (hne : cs ≠ []) :
    ∃ x r, ['/'].intercalate cs = x :: r ∧ x ≠ '/' := by
  obtain ⟨c, cs', rfl⟩ := List.exists_cons_of_ne_nil hne
  obtain ⟨h1, h2⟩ := h c (by simp)
  obtain ⟨x, c', rfl⟩ := List.exists_cons_of_ne_nil h1
  have hx : x ≠ '/' := by rintro rfl; exact h2 (by simp)
  cases cs' with
  | nil => exact ⟨x, c', by simp [List.intercalate], hx⟩
  | cons d ds => exact ⟨x, c' ++ '/' :: ['/'].intercalate (d :: ds), by simp [List.intercalate], hx⟩

theorem initialSlashes_render {k : Nat} (hk : k ≤ 2) {cs : List Str} (h : ∀ c ∈ cs, c ≠ [] ∧ '/' ∉ c) :
    initialSlashes (render k cs) = k := by
  unfold render
  by_cases hne : cs = []
  · subst hne
    match k, hk with
    | 0, _ => rfl
    | 1, _ => rfl
    | 2, _ => rfl
  · obtain ⟨x, r, he, hx⟩ := render_head h hne
    rw [he]
    match k, hk with
    | 0, _ =>
      simp only [List.replicate_zero, List.nil_append]
      unfold initialSlashes
      split <;> simp_all
    | 1, _ =>
      simp only [List.replicate_succ, List.replicate_zero, List.nil_append, List.cons_append]
      unfold initialSlashes
      split
      · rename_i h1; simp only [List.cons.injEq] at h1; exact absurd h1.2.1 hx
      · rename_i h1; simp only [List.cons.injEq] at h1; exact absurd h1.2.1 hx
      · rfl
      · rename_i h1; exact absurd rfl (h1 _)
    | 2, _ =>
      simp only [List.replicate_succ, List.replicate_zero, List.nil_append, List.cons_append]
      unfold initialSlashes
      split
      · rename_i h1; simp only [List.cons.injEq] at h1; exact absurd h1.2.2.1 hx
      · rfl
      · rename_i h1 h2; simp only [List.cons.injEq] at h2; exact absurd h2.2.symm (h1 _)
      · rename_i h1; exact absurd rfl (h1 _)

/-- a normal form is a fixed point -/
theorem reduced_render {k : Nat} (hk : k ≤ 2) {cs : List Str} (h : Normal (decide (k ≠ 0)) cs) :
    reduced (render k cs) = cs := by
  unfold reduced
  rw [initialSlashes_render hk h.mem, comps_render h.mem, List.foldl_append]
  have hs : ∀ (a : Bool) (k : Nat), (List.replicate k ([] : Str)).foldl (push a) [] = [] := by
    intro a k
    induction k with
    | zero => rfl
    | succ k ih => rw [List.replicate_succ, List.foldl_cons]; exact ih
  rw [hs]
  split
  · rename_i h0; subst h0; rfl
  · rw [foldl_push_id h, List.reverse_reverse]

theorem normpath_eq (p : Str) : normpath p = ['.'] ∧ isabs p = false ∧ reduced p = [] ∨
    normpath p = render (initialSlashes p) (reduced p) ∧ (isabs p = true ∨ reduced p ≠ []) := by
  unfold normpath
  split
  · rename_i h; subst h; exact Or.inl ⟨rfl, rfl, rfl⟩
  · rename_i h
    simp only
    split
    · rename_i hr
      left
      unfold render at hr
      rw [List.append_eq_nil_iff] at hr
      refine ⟨rfl, ?_, ?_⟩
      · rw [isabs_iff]
        have := congrArg List.length hr.1
        simp at this
        simp [this]
      · by_contra hne
        obtain ⟨x, r, he, _⟩ := render_head (reduced_normal p).mem hne
        rw [he] at hr
        cases hr.2
    · rename_i hr
      right
      refine ⟨rfl, ?_⟩
      by_contra hc
      rw [not_or, not_not, isabs_iff] at hc
      simp only [ne_eq, decide_not, Bool.not_eq_true', decide_eq_false_iff_not, not_not] at hc
      apply hr
      rw [hc.2, hc.1]
      rfl

theorem normpath_ne (p : Str) : normpath p ≠ [] := by
  unfold normpath
  split
  · simp
  · simp only
    split
    · simp
    · assumption

/-- The components of a normalised path. -/
theorem comps_normpath (p : Str) : isabs (normpath p) = isabs p ∧
    ∃ sk, Skips sk ∧ comps (normpath p) = sk ++ reduced p := by
  rcases normpath_eq p with ⟨h1, h2, h3⟩ | ⟨h1, h2⟩
  · rw [h1, h2, h3]
    exact ⟨rfl, [['.']], by simp [Skips], rfl⟩
  · rw [h1]
    constructor
    · rw [isabs_iff, isabs_iff, initialSlashes_render (initialSlashes_le p) (reduced_normal p).mem]
    · rw [comps_render (reduced_normal p).mem]
      by_cases hr : reduced p = []
      · refine ⟨List.replicate (initialSlashes p) [] ++ [[]], ?_, by rw [if_pos hr, hr, List.append_nil]⟩
        intro c hc
        rcases List.mem_append.1 hc with hc | hc
        · exact Or.inl (List.mem_replicate.1 hc).2
        · exact Or.inl (List.mem_singleton.1 hc)
      · exact ⟨List.replicate (initialSlashes p) [], fun c hc => Or.inl (List.mem_replicate.1 hc).2, by rw [if_neg hr]⟩

theorem dirname_slashes (k : Nat) {c : Str} (hc : '/' ∉ c) : dirname (List.replicate k '/' ++ c) = List.replicate k '/' := by
  have hh := (basename_append (d := List.replicate k '/') (b := c) (by
    cases k with
    | zero => exact Or.inl rfl
    | succ k => right; rw [List.replicate_succ']; simp) hc).1
  unfold dirname
  rw [hh, if_pos]
  simp

theorem reduced_slashes {k : Nat} (hk : k ≤ 2) : reduced (List.replicate k '/') = [] ∧
    isabs (List.replicate k '/') = decide (k ≠ 0) := by
  match k, hk with
  | 0, _ => exact ⟨rfl, rfl⟩
  | 1, _ => exact ⟨rfl, rfl⟩
  | 2, _ => exact ⟨rfl, rfl⟩

/-- The directory of a normalised path. -/
theorem reduced_dirname (p : Str) : isabs (dirname (normpath p)) = isabs p ∧
    reduced (dirname (normpath p)) = (reduced p).dropLast := by
  have hn := reduced_normal p
  have hle := initialSlashes_le p
  rcases normpath_eq p with ⟨h1, h2, h3⟩ | ⟨h1, h2⟩
  · rw [h1, h2, h3]; exact ⟨rfl, rfl⟩
  · rw [h1, isabs_iff p]
    rw [isabs_iff] at hn
    generalize initialSlashes p = k at *
    generalize reduced p = cs at *
    have hm := hn.mem
    rcases List.eq_nil_or_concat cs with rfl | ⟨cs', c, rfl⟩
    · have := dirname_slashes k (c := []) (by simp)
      unfold render
      rw [show ['/'].intercalate ([] : List Str) = [] from rfl, this]
      exact ⟨(reduced_slashes hle).2, (reduced_slashes hle).1⟩
    · rw [List.concat_eq_append] at *
      rw [List.dropLast_concat]
      obtain ⟨hc1, hc2⟩ := hm c (by simp)
      unfold render
      rw [intercalate_snoc]
      by_cases hne : cs' = []
      · subst hne
        rw [if_pos rfl, dirname_slashes k hc2]
        exact ⟨(reduced_slashes hle).2, (reduced_slashes hle).1⟩
      · rw [if_neg hne]
        have hm' : ∀ c ∈ cs', c ≠ [] ∧ '/' ∉ c := fun c hc => hm c (by simp [hc])
        obtain ⟨he1, he2⟩ := intercalate_end hne hm'
        rw [← List.append_assoc, dirname_snoc hc2]
        · have := hn.dropLast
          rw [List.dropLast_concat] at this
          have hr := reduced_render hle this
          unfold render at hr
          refine ⟨?_, hr⟩
          rw [isabs_iff]
          have := initialSlashes_render hle hm'
          unfold render at this
          rw [this]
        · intro e
          rw [List.getLast?_append] at e
          cases hg : (['/'].intercalate cs').getLast? with
          | none => rw [List.getLast?_eq_none_iff] at hg; exact he1 hg
          | some z => rw [hg] at e he2; simp only [Option.some_or] at e; exact he2 e
        · simp [he1]

/-- The components of the parent of a normalised path. -/
theorem comps_parent_normpath (p : Str) : isabs (parent (normpath p)) = isabs p ∧
    ∃ sk, Skips sk ∧ comps (parent (normpath p)) = sk ++ (reduced p).dropLast := by
  obtain ⟨h1, h2⟩ := reduced_dirname p
  obtain ⟨h3, sk, h4, h5⟩ := comps_normpath (dirname (normpath p))
  unfold parent
  exact ⟨by rw [h3, h1], sk, h4, by rw [h5, h2]⟩

example : comps (parent (normpath "a/b/../../../x/./y//z".toList)) = ["..".toList, "x".toList, "y".toList] := by
  decide +kernel

end Licant.Py.Path
