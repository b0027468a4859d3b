/-
Model of `licant/licant_libs.py`, the utility that edits the library registries, and C67.
-/
import Verif.Py.Dict
import Verif.Cxx.Paths

set_option autoImplicit false

namespace Licant.Misc.Libs

open Licant.Py Licant.Py.Path

/-! ### model -/

/-- a registry: library names to script paths -/
abbrev Registry := Dict Str Str

/-- The world of one call.  `stored u` is the content of the user's (`u`) or the system's registry file: `none` if there is
no such file, `some none` if it is not a JSON dictionary.  `abspath`, `exist` and `glob d` (the files matching `d/*.g.py`)
are those of the file system; `writable` says whether the registry file can be written. -/
structure World where
  stored : Bool → Option (Option Registry)
  abspath : Str → Str
  exist : Str → Bool
  glob : Str → List Str
  writable : Bool → Bool

/-- licant_libs.py:28-33: options and free arguments -/
structure Args where
  user : Bool
  remove : Bool
  list : Bool
  free : List Str

/-- how the call ends, and the new content of the registry file if it was written.  Exit status 2 is `parser.error`. -/
inductive End where
  | returned
  | exit (code : Int)
  | raised
deriving DecidableEq

/-- licant_libs.py:14-23 `add_record`: `none` is the exit -/
def addRecord (W : World) (paths : Registry) (name path : Str) : Option Registry :=
  if W.exist (W.abspath path) then some (paths.set name (W.abspath path)) else none

/-- licant_libs.py:72-73 `os.path.basename(f).split('.')[0]`: the name a file found in a directory is registered under -/
def libName (f : Str) : Str := (basename f).takeWhile (· ≠ '.')

/-- licant_libs.py:70-75: the loop over the files found -/
def addFound (W : World) : Registry → List Str → Option Registry
  | paths, [] => some paths
  | paths, f :: fs =>
    match addRecord W paths (libName f) f with
    | none => none
    | some paths => addFound W paths fs

/-- licant_libs.py:35-45: the registry loaded; `none` is the exit -/
def load (W : World) (user : Bool) : Option Registry :=
  match W.stored user with
  | none => some []
  | some none => none
  | some (some paths) => some paths

/-- licant_libs.py:61-75: the records added; `none` is the exit -/
def added (W : World) (paths : Registry) (a : Args) : Option Registry :=
  match a.free with
  | [name, path] => if a.remove then some paths else addRecord W paths name path
  | [dir] => if a.remove then some paths else addFound W paths (W.glob dir)
  | _ => some paths

/-- licant_libs.py:77-81: `del paths[name]`.  With `-r` there is one free argument (53), and `name` is then still `None`
(62), which is no key of the registry: the exception is caught and a message printed. -/
def removed (a : Args) (paths : Registry) : Registry :=
  if a.remove then
    let name : Option Str := none
    match name with
    | none => paths
    | some n => paths.del n
  else paths

/-- licant_libs.py:26-89 `licant_libs_utility` -/
def utility (W : World) (a : Args) : End × Option Registry :=
  match load W a.user with
  | none => (.exit (-1), none)
  | some paths =>
    if a.list then (.exit 0, none)
    else if a.free.length > 2 ∨ (a.remove ∧ a.free.length ≠ 1) then (.exit 2, none)
    else if a.free.length = 0 then (.raised, none)
    else match added W paths a with
      | none => (.exit (-1), none)
      | some paths =>
        if W.writable a.user then (.returned, some (removed a paths)) else (.exit (-1), none)

/-! ### specification and theorems -/

/-- what a registry says about a name after the call: the file if it was written, the old content otherwise -/
def after (W : World) (a : Args) (n : Str) : Option Str :=
  match (utility W a).2 with
  | some r => r.get n
  | none => (load W a.user).bind (·.get n)

/-- what it said before -/
def before (W : World) (user : Bool) (n : Str) : Option Str := (load W user).bind (·.get n)

/-- `n` is the name of the file with path `f` up to the first dot -/
def NameOf (f n : Str) : Prop :=
  ∃ d r, f = d ++ (n ++ r) ∧ (d = [] ∨ d.getLast? = some '/') ∧ '/' ∉ n ++ r ∧ '.' ∉ n ∧ (r = [] ∨ r.head? = some '.')

theorem takeWhile_stop {n r : Str} (h : '.' ∉ n) (hr : r = [] ∨ r.head? = some '.') :
    (n ++ r).takeWhile (· ≠ '.') = n := by
  have h1 : ∀ c ∈ n, decide (c ≠ '.') = true := fun c hc => by
    rw [decide_eq_true_eq]; rintro rfl; exact h hc
  rw [List.takeWhile_append_of_pos h1]
  rcases hr with rfl | hr
  · simp
  · cases r with
    | nil => simp
    | cons c r =>
      simp only [List.head?_cons, Option.some.injEq] at hr
      subst hr
      simp

theorem libName_iff {f n : Str} : libName f = n ↔ NameOf f n := by
  constructor
  · rintro rfl
    refine ⟨head f, (basename f).dropWhile (· ≠ '.'), ?_, ?_, ?_, ?_, ?_⟩
    · rw [libName, List.takeWhile_append_dropWhile, head_append_basename]
    · unfold head
      rw [List.getLast?_reverse]
      cases h : f.reverse.dropWhile (· ≠ '/') with
      | nil => exact Or.inl rfl
      | cons c l =>
        right
        have := List.head_dropWhile_not (p := fun c : Char => decide (c ≠ '/')) (l := f.reverse) (by rw [h]; simp)
        simp only [h, List.head_cons] at this
        simpa using this
    · rw [libName, List.takeWhile_append_dropWhile]
      exact basename_noslash f
    · intro h
      have := List.all_takeWhile (p := fun c : Char => decide (c ≠ '.')) (l := basename f)
      rw [List.all_eq_true] at this
      simpa using this _ h
    · cases h : (basename f).dropWhile (· ≠ '.') with
      | nil => exact Or.inl rfl
      | cons c l =>
        right
        have := List.head_dropWhile_not (p := fun c : Char => decide (c ≠ '.')) (l := basename f) (by rw [h]; simp)
        simp only [h, List.head_cons] at this
        simpa using this
  · rintro ⟨d, r, rfl, h1, h2, h3, h4⟩
    unfold libName
    rw [(Cxx.basename_append h1 h2).2]
    exact takeWhile_stop h3 h4

theorem addFound_get (W : World) : ∀ (fs : List Str) (paths r : Registry), addFound W paths fs = some r →
    (∀ f ∈ fs, W.exist (W.abspath f) = true) ∧
    ∀ n, r.get n = match (fs.reverse.find? fun f => libName f = n) with
      | some f => some (W.abspath f)
      | none => paths.get n := by
  intro fs
  induction fs with
  | nil => intro paths r h; simp only [addFound, Option.some.injEq] at h; subst h; simp
  | cons f fs ih =>
    intro paths r h
    simp only [addFound] at h
    split at h
    · cases h
    rename_i p hp
    simp only [addRecord] at hp
    split at hp
    · rename_i hx
      simp only [Option.some.injEq] at hp
      obtain ⟨h1, h2⟩ := ih p r h
      refine ⟨fun g hg => ?_, fun n => ?_⟩
      · rcases List.mem_cons.1 hg with rfl | hg
        · exact hx
        · exact h1 g hg
      · rw [h2 n, List.reverse_cons, List.find?_append]
        cases hf : fs.reverse.find? fun f => libName f = n with
        | some g => simp
        | none =>
          subst hp
          simp only [Option.none_or, List.find?_cons, List.find?_nil]
          rw [Dict.get_set]
          by_cases hn : libName f = n
          · simp [hn]
          · simp [hn]
    · cases hp

theorem addFound_isSome (W : World) (fs : List Str) (paths : Registry)
    (h : ∀ f ∈ fs, W.exist (W.abspath f) = true) : (addFound W paths fs).isSome := by
  induction fs generalizing paths with
  | nil => rfl
  | cons f fs ih =>
    simp only [addFound, addRecord, h f (by simp), if_true]
    exact ih _ fun g hg => h g (List.mem_cons_of_mem _ hg)

/-- **C67**, the part about adding.  `licant-libs NAME PATH` (without `-r`, `-l`) on a readable and writable registry: if the
file exists, then NAME stands for its absolute path afterwards and every other name for what it stood for before;
otherwise the program exits with an error and nothing is written.  `licant-libs DIR` adds every file found in the
directory, under its name up to the first dot (the last one found if names collide), and keeps all other names.
What is missing for C67: removing, see `C67_violated`. -/
theorem C67_partial (W : World) (user : Bool) (hr : (load W user).isSome) (hw : W.writable user = true) :
    (∀ name path, let a : Args := ⟨user, false, false, [name, path]⟩
      (W.exist (W.abspath path) = true → (utility W a).1 = .returned ∧ after W a name = some (W.abspath path) ∧
        ∀ n, n ≠ name → after W a n = before W user n) ∧
      (W.exist (W.abspath path) = false → utility W a = (.exit (-1), none))) ∧
    ∀ dir, let a : Args := ⟨user, false, false, [dir]⟩
      (∀ f ∈ W.glob dir, W.exist (W.abspath f) = true) →
      (utility W a).1 = .returned ∧
      (∀ n, (∀ f ∈ W.glob dir, ¬ NameOf f n) → after W a n = before W user n) ∧
      ∀ pre f post n, W.glob dir = pre ++ f :: post → NameOf f n → (∀ g ∈ post, ¬ NameOf g n) →
        after W a n = some (W.abspath f) := by
  obtain ⟨paths, hp⟩ := Option.isSome_iff_exists.1 hr
  refine ⟨fun name path => ⟨fun hx => ?_, fun hx => ?_⟩, fun dir hx => ?_⟩
  · simp only [utility, after, before, hp, added, addRecord, hx, hw, removed]
    refine ⟨by simp, by simp, fun n hn => ?_⟩
    simp [Dict.get_set, Ne.symm hn]
  · simp [utility, hp, added, addRecord, hx]
  · obtain ⟨r, h⟩ := Option.isSome_iff_exists.1 (addFound_isSome W (W.glob dir) paths hx)
    have hg := (addFound_get W _ _ _ h).2
    simp only [utility, after, before, hp, added, hw, removed, h]
    refine ⟨by simp, fun n hn => ?_, fun pre f post n e hf hn => ?_⟩
    · have hnone : (W.glob dir).reverse.find? (fun f => libName f = n) = none := by
        rw [List.find?_eq_none]
        intro f hf
        simpa [libName_iff] using hn f (List.mem_reverse.1 hf)
      have := hg n
      rw [hnone] at this
      simpa using this
    · have hsome : (W.glob dir).reverse.find? (fun f => libName f = n) = some f := by
        rw [e, List.reverse_append, List.reverse_cons, List.append_assoc, List.find?_append,
          List.find?_eq_none.2 (fun g hg => by simpa [libName_iff] using hn g (List.mem_reverse.1 hg))]
        simp [libName_iff.2 hf]
      have := hg n
      rw [hsome] at this
      simpa using this

/-- **C67 is false** for removal: `licant-libs -r NAME` reports success and leaves every record as it was, also NAME's. -/
theorem C67_violated (W : World) (user : Bool) (hr : (load W user).isSome) (hw : W.writable user = true) (name : Str) :
    (utility W ⟨user, true, false, [name]⟩).1 = .returned ∧
    ∀ n, after W ⟨user, true, false, [name]⟩ n = before W user n := by
  obtain ⟨paths, hp⟩ := Option.isSome_iff_exists.1 hr
  simp [utility, after, before, hp, added, hw, removed]

/-- Whatever the arguments, nothing is written but the registry chosen by `-u`, and it is not written by a call that does not
return. -/
theorem C67_quiet (W : World) (a : Args) (h : (utility W a).1 ≠ .returned) : (utility W a).2 = none := by
  unfold utility at h ⊢
  repeat' split
  all_goals first | rfl | skip
  simp_all

/-- **C67**, when it works: the call returns exactly if the registry file is missing or a JSON dictionary, the registry is not only
to be listed, there are one or two arguments (one with `-r`), what is to be added exists, and the registry can be written.
Otherwise nothing is written (`C67_quiet`). -/
theorem C67_returns (W : World) (a : Args) : (utility W a).1 = .returned ↔
    W.stored a.user ≠ some none ∧ a.list = false ∧ W.writable a.user = true ∧
      ((∃ name path, a.free = [name, path] ∧ a.remove = false ∧ W.exist (W.abspath path) = true) ∨
        ∃ dir, a.free = [dir] ∧ (a.remove = false → ∀ f ∈ W.glob dir, W.exist (W.abspath f) = true)) := by
  obtain ⟨user, remove, list, free⟩ := a
  have hl : W.stored user ≠ some none ↔ (load W user).isSome := by
    unfold load
    rcases W.stored user with _ | _ | _ <;> simp
  dsimp only
  rw [hl]
  cases hp : load W user with
  | none => simp [utility, hp]
  | some paths =>
    cases list with
    | true => simp [utility, hp]
    | false =>
      rcases free with _ | ⟨x, _ | ⟨y, _ | ⟨z, l⟩⟩⟩
      · cases remove <;> simp [utility, hp]
      · cases remove with
        | true => cases hw : W.writable user <;> simp [utility, hp, added, hw]
        | false =>
          by_cases hx : ∀ f ∈ W.glob x, W.exist (W.abspath f) = true
          · obtain ⟨r, h⟩ := Option.isSome_iff_exists.1 (addFound_isSome W (W.glob x) paths hx)
            cases hw : W.writable user
            · simp [utility, hp, added, h, hw]
            · simpa [utility, hp, added, h, hw] using hx
          · cases h : addFound W paths (W.glob x) with
            | none => simpa [utility, hp, added, h] using fun _ => hx
            | some r => exact absurd (addFound_get W _ _ _ h).1 hx
      · cases remove with
        | true => simp [utility, hp]
        | false =>
          cases hx : W.exist (W.abspath y) <;> cases hw : W.writable user <;>
            simp [utility, hp, added, addRecord, hx, hw]
      · simp [utility, hp]

/-- a registry with one record; a file that exists -/
def demo : World where
  stored := fun u => if u then some (some [("a".toList, "/a.g.py".toList)]) else none
  abspath := fun p => join "/w".toList p
  exist := fun p => p = "/w/b.g.py".toList
  glob := fun d => if d = ".".toList then ["b.g.py".toList] else []
  writable := fun _ => true

example : (load demo true).isSome ∧ demo.exist (demo.abspath "b.g.py".toList) = true ∧
    demo.exist (demo.abspath "c".toList) = false ∧
    (utility demo ⟨true, false, false, ["b".toList, "b.g.py".toList]⟩).2 =
      some [("a".toList, "/a.g.py".toList), ("b".toList, "/w/b.g.py".toList)] ∧
    (utility demo ⟨true, false, false, [".".toList]⟩).2 =
      some [("a".toList, "/a.g.py".toList), ("b".toList, "/w/b.g.py".toList)] ∧
    before demo true "a".toList = some "/a.g.py".toList ∧
    after demo ⟨true, true, false, ["a".toList]⟩ "a".toList = some "/a.g.py".toList := by
  decide +kernel

example : NameOf "./b.g.py".toList "b".toList :=
  ⟨"./".toList, ".g.py".toList, rfl, Or.inr rfl, by decide, by decide, Or.inr rfl⟩

end Licant.Misc.Libs
