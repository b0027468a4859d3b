/-
`execute_recursive` of `licant/scripter.py` with the search of `licant/util.py`.
C106: a witness that hidden texts in the path of the root hide everything; C109: every script found is executed.
-/
import Verif.Misc.Glob
import Verif.Misc.Scripts

set_option autoImplicit false

namespace Licant.Misc.Search
open Licant.Py Licant.Py.Path Licant.Make Licant.Make.Fs Licant.Misc.Glob Licant.Misc.Scripts

variable {T : Tree} {cwd : List Str}

/-- C106 is false of the code: `execute_recursive("/proj", ".c", hide="pro")` finds nothing, although no directory below
`/proj` has `pro` in its name and there are files to be found. -/
theorem C106_violated_witness : ∃ (V : View treeV1 []) (q ds : List Str) (f : Str), Opens treeV1 [] (nm "/proj") q ∧
    FileIn treeV1 q ds f ∧ nm ".c" <:+: f ∧ (∀ d ∈ ds, ¬ nm "pro" <:+: d) ∧
    findRecursive V 10 (nm "/proj") (nm ".c") (some (nm "pro")) = some [] := by
  obtain ⟨hfin, hdeep⟩ := ofList_finite entries_closed.1
  have hN := hdeep 3 (by decide +kernel)
  let V : View treeV1 [] := viewOf treeV1 [] hfin
  obtain ⟨-, ⟨out, h2⟩⟩ := C105_returns V hN (lim := 10) (by omega) (nm "/proj") (nm ".c") (some (nm "pro"))
  have hw : walkF treeV1 10 (start [] (nm "/proj")) (comps (nm "/proj")) = some [nm "proj"] := by decide +kernel
  have hg : treeV1.get ([nm "proj"] ++ [nm "v1"] ++ [nm "a.c"]) = some .file := by decide +kernel
  refine ⟨V, [nm "proj"], [nm "v1"], nm "a.c", ⟨by decide, walkF_sound _ _ _ _ hw, by decide +kernel⟩, ⟨by rw [hg]; simp, by rw [hg]; simp, fun t m e => by rw [hg] at e; cases e⟩,
    by decide +kernel, by decide +kernel, ?_⟩
  rw [h2, C106_violated V (by decide +kernel) h2]

/-- the executions of a script and of what it executes itself -/
theorem execFile_log (W : Files) (hW : W.llibs.keys.Nodup) (n : Nat) (lib : Option String) (path : Str) (st : SS) :
    ∃ new, (execFile W n lib path st).1.log = st.log ++ ⟨lib, path⟩ :: new ∧
      ∀ prog, W.script path = some prog → Origin W path prog new := by
  cases n with
  | zero => exact ⟨[], rfl, fun _ _ e he => by cases he⟩
  | succ n =>
    simp only [execFile]
    split
    · rename_i hs
      exact ⟨[], rfl, fun prog hp => by rw [hs] at hp; cases hp⟩
    · rename_i prog hs
      obtain ⟨new, h1, h2⟩ := run_origin W hW n path prog (st.enter lib path) (by simp [SS.curdir, SS.enter])
      refine ⟨new, ?_, fun prog' hp => ?_⟩
      · rw [leave_log, h1]; simp [SS.enter]
      · rw [hs] at hp; cases hp; exact h2

/-- the executions of a list of scripts -/
theorem execAll_log (W : Files) (hW : W.llibs.keys.Nodup) (n : Nat) : ∀ (fs : List Str) (st st' : SS),
    execAll (execFile W n) fs st = (st', none) → st'.stack = st.stack ∧ ∃ parts : List (List Ran), parts.length = fs.length ∧
      st'.log = st.log ++ (List.zipWith (fun f p => ⟨none, f⟩ :: p) fs parts).flatten ∧
      ∀ x ∈ fs.zip parts, ∀ prog, W.script x.1 = some prog → Origin W x.1 prog x.2 := by
  intro fs
  induction fs with
  | nil => intro st st' h; cases h; exact ⟨rfl, [], rfl, by simp, by simp⟩
  | cons f fs ih =>
    intro st st' h
    unfold execAll andThen at h
    cases hr : execFile W n none f st with
    | mk st1 e =>
      rw [hr] at h
      cases e with
      | some e => cases h
      | none =>
        obtain ⟨h1, parts, h2, h3, h4⟩ := ih st1 st' h
        obtain ⟨new, h5, h6⟩ := execFile_log W hW n none f st
        rw [hr] at h5
        refine ⟨h1.trans (execFile_stack W hW n none f st st1 hr), new :: parts, by simp [h2], ?_, ?_⟩
        · simp only at h5
          rw [h3, h5]; simp
        · intro x hx
          rw [List.zip_cons_cons, List.mem_cons] at hx
          rcases hx with rfl | hx
          · exact h6
          · exact h4 x hx

/-- **C109**.  A call of `execute_recursive(root, pattern, hide)` by a script in the directory `st.curdir` that returns
executed every file below the directory `root` (relative to the script's) whose name contains `pattern` and that is in no
hidden directory, once and one after the other; what else was executed meanwhile was asked for by the scripts found, or by
scripts executed by these; the calling script is the current one again.  `hide` must not occur in the path of the root
(see C106). -/
theorem C109_recursive (V : View T cwd) {lim n : Nat} (W : Files) (hW : W.llibs.keys.Nodup)
    (hfind : ∀ root pattern hide out, findRecursive V lim root pattern hide = some out → W.find root pattern hide = out)
    {root pattern : Str} {hide : Option Str} {st st' : SS} {q : List Str} {files : List Str}
    (hfiles : findRecursive V lim (join st.curdir root) pattern hide = some files)
    (hhide : ∀ h, hide = some h → '/' ∉ h ∧ ¬ h <:+: join st.curdir root)
    (hq : Opens T cwd (join st.curdir root) q)
    (hr : runScript W (execFile W n) (.executeRec root pattern hide .done) st = (st', none)) :
    (∀ p, p ∈ files ↔ ∃ ds f, FileIn T q ds f ∧ pattern <:+: f ∧ (∀ h, hide = some h → ∀ d ∈ ds, ¬ h <:+: d) ∧
      p = below (join st.curdir root) (ds ++ [f])) ∧ files.Nodup ∧
    st'.stack = st.stack ∧ ∃ parts : List (List Ran), parts.length = files.length ∧
      st'.log = st.log ++ (List.zipWith (fun f p => ⟨none, f⟩ :: p) files parts).flatten ∧
      ∀ x ∈ files.zip parts, ∀ prog, W.script x.1 = some prog → Origin W x.1 prog x.2 := by
  obtain ⟨h1, h2⟩ := C106_partial V hhide hfiles hq
  refine ⟨h1, h2, execAll_log W hW n files st st' ?_⟩
  simp only [runScript, hfind _ _ _ _ hfiles] at hr
  unfold andThen at hr
  split at hr
  · rename_i r s h
    rw [h]
    simp only at hr
    exact hr
  · cases hr

/-- C109 for `/proj` of C105's example: the two scripts below it, each of which executes nothing else. -/
example : ∃ (V : View treeV1 []) (W : Files) (st' : SS) (files : List Str),
    findRecursive V 10 (join (SS.start (nm "/main.py")).curdir (nm "proj")) (nm ".c") none = some files ∧
    runScript W (execFile W 10) (.executeRec (nm "proj") (nm ".c") none .done) (SS.start (nm "/main.py")) = (st', none) ∧
    nm "/proj/v1/a.c" ∈ files ∧ st'.log = files.map (fun f => ⟨none, f⟩) := by
  classical
  obtain ⟨hfin, hdeep⟩ := ofList_finite entries_closed.1
  have hN := hdeep 3 (by decide +kernel)
  let V : View treeV1 [] := viewOf treeV1 [] hfin
  let W : Files := ⟨fun _ => some .done, fun _ => true, fun r p h => (findRecursive V 10 r p h).getD [], [], []⟩
  have hj : join (SS.start (nm "/main.py")).curdir (nm "proj") = nm "/proj" := by decide +kernel
  obtain ⟨-, ⟨files, h2⟩⟩ := C105_returns V hN (lim := 10) (by omega) (nm "/proj") (nm ".c") none
  have hw : walkF treeV1 10 (start [] (nm "/proj")) (comps (nm "/proj")) = some [nm "proj"] := by decide +kernel
  have ho : Opens treeV1 [] (nm "/proj") [nm "proj"] := ⟨by decide, walkF_sound _ _ _ _ hw, by decide +kernel⟩
  have hall : ∀ (fs : List Str) (st : SS), execAll (execFile W 10) fs st =
      ({ st with log := st.log ++ fs.map fun f => ⟨none, f⟩ }, none) := by
    intro fs
    induction fs with
    | nil => intro st; simp [execAll]
    | cons f fs ih =>
      intro st
      have : execFile W 10 none f st = ({ st with log := st.log ++ [⟨none, f⟩] }, none) := by
        simp [execFile, W, runScript, leave, SS.enter]
      rw [execAll, this, andThen, ih]
      simp
  have hrun : runScript W (execFile W 10) (.executeRec (nm "proj") (nm ".c") none .done) (SS.start (nm "/main.py")) =
      ({ SS.start (nm "/main.py") with log := files.map fun f => ⟨none, f⟩ }, none) := by
    simp only [runScript, hj]
    rw [show W.find (nm "/proj") (nm ".c") none = files from by simp [W, h2], hall]
    simp [andThen, SS.start]
  have hg : treeV1.get ([nm "proj"] ++ [nm "v1"] ++ [nm "a.c"]) = some .file := by decide +kernel
  refine ⟨V, W, _, files, by rw [hj]; exact h2, hrun, ?_, rfl⟩
  obtain ⟨hm, -, -, parts, -, -, -⟩ := C109_recursive V W (by simp [W, Dict.keys]) (lim := 10) (n := 10) (by
    intro r p h out hf; simp [W, hf]) (by rw [hj]; exact h2) (by intro h e; cases e) (by rw [hj]; exact ho) hrun
  refine (hm _).2 ⟨[nm "v1"], nm "a.c", ⟨by rw [hg]; simp, by rw [hg]; simp, fun t m e => by rw [hg] at e; cases e⟩,
    by decide +kernel, (by intro h e; cases e), ?_⟩
  rw [hj]
  decide +kernel

end Licant.Misc.Search
