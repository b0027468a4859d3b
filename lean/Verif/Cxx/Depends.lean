/-
Reading dependency files, licant/util.py:240-254: C56.
-/
import Mathlib.Data.List.TakeWhile
import Mathlib.Tactic.Tauto

set_option autoImplicit false

namespace Licant.Cxx

/-! ### Model -/

/-- licant/util.py:240: the character class of the pattern: `\w`, dot, slash and minus.  `\w` is exact for ASCII; which other characters count as word
characters is left open (`uni`). -/
def nameChar (uni : Char → Bool) (c : Char) : Bool :=
  c.isAlphanum || c == '_' || c == '.' || c == '/' || c == '-' || (decide (128 ≤ c.toNat) && uni c)

/-- `findall` of `[...]+`: the maximal runs of characters that satisfy `p`; `cur` is the current run, reversed -/
def runs (p : Char → Bool) (cur : List Char) : List Char → List (List Char)
  | [] => if cur = [] then [] else [cur.reverse]
  | c :: cs =>
    if p c then runs p (c :: cur) cs
    else (if cur = [] then [] else [cur.reverse]) ++ runs p [] cs

/-- licant/util.py:243-254, `cxx_read_depends`; the argument is the content of the file, `none` if it does not exist -/
def readDepends (uni : Char → Bool) : Option (List Char) → Option (List (List Char))
  | none => none
  | some [] => none
  | some text => some ((runs (nameChar uni) [] text).drop 2)

/-! ### Specification -/

/-- a letter, a digit, an underscore, a dot, a slash, a minus, or a character outside ASCII that counts as a letter -/
def InName (uni : Char → Bool) (c : Char) : Prop :=
  'a' ≤ c ∧ c ≤ 'z' ∨ 'A' ≤ c ∧ c ≤ 'Z' ∨ '0' ≤ c ∧ c ≤ '9' ∨ c ∈ ['_', '.', '/', '-'] ∨ 128 ≤ c.toNat ∧ uni c = true

/-- a file name that consists of such characters -/
def Name (uni : Char → Bool) (s : List Char) : Prop := s ≠ [] ∧ ∀ c ∈ s, InName uni c

/-- what stands between names: anything but characters of names, for example `": "`, a space, or a space, a backslash
and a new line -/
def Sep (uni : Char → Bool) (s : List Char) : Prop := s ≠ [] ∧ ∀ c ∈ s, ¬ InName uni c

/-! ### Proof -/

variable {uni : Char → Bool}

theorem nameChar_iff (c : Char) : nameChar uni c = true ↔ InName uni c := by
  unfold nameChar InName
  simp only [Char.isAlphanum, Char.isAlpha, Char.isUpper, Char.isLower, Char.isDigit, Bool.or_eq_true, Bool.and_eq_true,
    decide_eq_true_eq, beq_iff_eq, List.mem_cons, List.not_mem_nil, or_false, Char.le_def]
  simp only [ge_iff_le]
  tauto

theorem nameChar_false (c : Char) : nameChar uni c = false ↔ ¬ InName uni c := by
  rw [← nameChar_iff, Bool.not_eq_true]

theorem runs_name {p : Char → Bool} : ∀ (s cur rest : List Char), (∀ c ∈ s, p c = true) →
    runs p cur (s ++ rest) = runs p (s.reverse ++ cur) rest := by
  intro s
  induction s with
  | nil => intro cur rest _; rfl
  | cons c s ih =>
    intro cur rest h
    rw [List.cons_append, runs, if_pos (h c (by simp)), ih _ _ fun c hc => h c (by simp [hc])]
    simp

theorem runs_sep {p : Char → Bool} : ∀ (s rest : List Char), (∀ c ∈ s, p c = false) → runs p [] (s ++ rest) = runs p [] rest := by
  intro s
  induction s with
  | nil => intro rest _; rfl
  | cons c s ih =>
    intro rest h
    rw [List.cons_append, runs, h c (by simp)]
    simp only [Bool.false_eq_true, if_false, if_true, List.nil_append]
    exact ih rest fun c hc => h c (by simp [hc])

theorem runs_name_sep {p : Char → Bool} {s t : List Char} (rest : List Char) (hs : s ≠ []) (hsp : ∀ c ∈ s, p c = true)
    (ht : t ≠ []) (htp : ∀ c ∈ t, p c = false) : runs p [] (s ++ (t ++ rest)) = s :: runs p [] rest := by
  obtain ⟨c, t, rfl⟩ := List.exists_cons_of_ne_nil ht
  rw [runs_name s [] _ hsp, List.append_nil, List.cons_append, runs, htp c (by simp)]
  have : s.reverse ≠ [] := by simpa using hs
  simp only [Bool.false_eq_true, if_false, this, List.reverse_reverse, List.singleton_append]
  rw [runs_sep t rest fun c hc => htp c (by simp [hc])]

theorem runs_last {p : Char → Bool} {s t : List Char} (hs : s ≠ []) (hsp : ∀ c ∈ s, p c = true)
    (htp : ∀ c ∈ t, p c = false) : runs p [] (s ++ t) = [s] := by
  cases t with
  | nil =>
    have h := runs_name s [] [] hsp
    rw [h, List.append_nil, runs]
    have : s.reverse ≠ [] := by simpa using hs
    simp [this]
  | cons c t =>
    have := runs_name_sep (p := p) (s := s) (t := c :: t) [] hs hsp (by simp) htp
    rw [List.append_nil] at this
    rw [this]
    rfl

theorem runs_list : ∀ (hs : List (List Char × List Char)) (s trail : List Char),
    Name uni s → (∀ h ∈ hs, Sep uni h.1 ∧ Name uni h.2) → (∀ c ∈ trail, ¬ InName uni c) →
    runs (nameChar uni) [] (s ++ (hs.flatMap (fun h => h.1 ++ h.2) ++ trail)) = s :: hs.map (·.2) := by
  intro hs
  induction hs with
  | nil =>
    intro s trail h1 _ h3
    exact runs_last h1.1 (fun c hc => (nameChar_iff c).2 (h1.2 c hc)) (fun c hc => (nameChar_false c).2 (h3 c hc))
  | cons x hs ih =>
    intro s trail h1 h2 h3
    obtain ⟨hx1, hx2⟩ := h2 x (by simp)
    rw [List.flatMap_cons, List.append_assoc, List.append_assoc,
      runs_name_sep _ h1.1 (fun c hc => (nameChar_iff c).2 (h1.2 c hc)) hx1.1 (fun c hc => (nameChar_false c).2 (hx1.2 c hc)),
      ih x.2 trail hx2 (fun h hh => h2 h (by simp [hh])) h3]
    rfl

/-- **C56**: a dependency file `obj: src h1 ... hn` with any separators between the names is read as `[h1, ..., hn]`; a
missing and an empty file give `None`. -/
theorem C56_headers (uni : Char → Bool) :
    (∀ (obj colon src trail : List Char) (hs : List (List Char × List Char)),
      Name uni obj → Sep uni colon → Name uni src → (∀ h ∈ hs, Sep uni h.1 ∧ Name uni h.2) →
      (∀ c ∈ trail, ¬ InName uni c) →
      readDepends uni (some (obj ++ colon ++ src ++ hs.flatMap (fun h => h.1 ++ h.2) ++ trail)) =
        some (hs.map (·.2))) ∧
    readDepends uni none = none ∧ readDepends uni (some []) = none := by
  refine ⟨?_, rfl, rfl⟩
  intro obj colon src trail hs h1 h2 h3 h4 h5
  have hne : obj ++ colon ++ src ++ hs.flatMap (fun h => h.1 ++ h.2) ++ trail ≠ [] := by
    simp [h1.1]
  have hr := runs_list ((colon, src) :: hs) obj trail h1 (by
    intro h hh
    rcases List.mem_cons.mp hh with rfl | hh
    · exact ⟨h2, h3⟩
    · exact h4 h hh) h5
  obtain ⟨c, t, ht⟩ := List.exists_cons_of_ne_nil hne
  rw [ht, readDepends, ← ht]
  · rw [List.flatMap_cons] at hr
    simp only [List.append_assoc] at hr ⊢
    rw [hr]
    rfl
  · intro h; cases h

/-- what `c++ -MM` writes for a source with two headers, with a continued line -/
example : readDepends (fun _ => false) (some "a.o: src/a.cpp src/a.h \\\n inc/b-1.h\n".toList) =
    some ["src/a.h".toList, "inc/b-1.h".toList] := by decide +kernel

/-- the hypotheses hold for it -/
example : Name (fun _ => false) "a.o".toList ∧ Sep (fun _ => false) ": ".toList ∧ Sep (fun _ => false) " \\\n ".toList ∧
    Name (fun _ => false) "inc/b-1.h".toList :=
  ⟨⟨by decide, by unfold InName; decide +kernel⟩, ⟨by decide, by unfold InName; decide +kernel⟩,
   ⟨by decide, by unfold InName; decide +kernel⟩, ⟨by decide, by unfold InName; decide +kernel⟩⟩

/-- names with other characters are torn apart: the header `c++/x.h` is read as `c` and `/x.h`, and so is a name with an
escaped space -/
theorem C56_other_names (uni : Char → Bool) :
    readDepends uni (some "a.o: a.c c++/x.h".toList) = some ["c".toList, "/x.h".toList] ∧
    readDepends uni (some "a.o: a.c my\\ x.h".toList) = some ["my".toList, "x.h".toList] := by
  have h : ∀ c : Char, c.toNat < 128 → nameChar uni c = nameChar (fun _ => false) c := by
    intro c hc
    have : decide (128 ≤ c.toNat) = false := by simp; omega
    simp [nameChar, this]
  have hr : ∀ (t cur : List Char), (∀ c ∈ t, c.toNat < 128) →
      runs (nameChar uni) cur t = runs (nameChar (fun _ => false)) cur t := by
    intro t
    induction t with
    | nil => intro cur _; rfl
    | cons c t ih =>
      intro cur ht
      rw [runs, runs, h c (ht c (by simp)), ih _ fun c hc => ht c (by simp [hc]),
        ih _ fun c hc => ht c (by simp [hc])]
  constructor
  · show some ((runs (nameChar uni) [] "a.o: a.c c++/x.h".toList).drop 2) = _
    rw [hr _ _ (by decide +kernel)]
    decide +kernel
  · show some ((runs (nameChar uni) [] "a.o: a.c my\\ x.h".toList).drop 2) = _
    rw [hr _ _ (by decide +kernel)]
    decide +kernel

end Licant.Cxx
