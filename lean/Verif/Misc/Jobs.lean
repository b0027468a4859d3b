/-
The option `-j` of the command line (licant/cli.py:38-40, 145-147), down to the workers of the solver: C120.
-/
import Verif.Misc.Cli
import Verif.Core.Update

set_option autoImplicit false

namespace Licant.Misc
open Licant.Py Licant.Core

/-! ### model -/

/-- the characters that `int` skips at both ends of a text; texts with characters outside ASCII are not modelled -/
def blank (ch : Char) : Bool :=
  ch ∈ [' ', '\t', '\n', '\r', '\x0b', '\x0c']

/-- one character of a number: the value so far, and whether the last character was a digit.  Digits outside ASCII are not
modelled. -/
def digitStep (st : Nat × Bool) (ch : Char) : Option (Nat × Bool) :=
  if ch.isDigit then some (10 * st.1 + (ch.toNat - '0'.toNat), true)
  else if ch = '_' ∧ st.2 = true then some (st.1, false)
  else none

/-- a number without sign -/
def digits (s : List Char) : Option Nat :=
  match s.foldlM digitStep (0, false) with
  | some (n, true) => some n
  | _ => none

/-- `int(s)` for a text `s` (called at cli.py:146); `none` is `ValueError` -/
def pyInt (s : List Char) : Option Int :=
  match ((s.dropWhile blank).reverse.dropWhile blank).reverse with
  | '-' :: r => (digits r).map fun n : Nat => -(n : Int)
  | '+' :: r => (digits r).map fun n : Nat => (n : Int)
  | r => (digits r).map fun n : Nat => (n : Int)

/-- an exception in `cliexecute`: `ValueError`, or one of `__cliexecute` -/
inductive CliErr where
  | value
  | other (e : Err)

/-- cli.py:145-147: the value of `runtime["threads"]`.  `opt` is the text given with `-j`, `"j"` if it is not given (cli.py:39);
`cpu` is the result of `os.cpu_count()`, which may be `None`. -/
def jobs (cpu : Option Nat) (opt : String) : Except CliErr (Option Int) :=
  if opt = "j" then .ok (cpu.map Int.ofNat)
  else match pyInt opt.toList with
    | some z => .ok (some z)
    | none => .error .value

variable {σ ρ : Type}

/-- cli.py:131-158 `cliexecute` with the option `-j`; `setThreads` sets `core.runtime["threads"]`.  As in `Prog.cliexecute`, the
other options are not modelled. -/
def Prog.cliJobs (P : Prog σ ρ) (setThreads : σ → Option Int → σ) (cpu : Option Nat) (opt : String) (default : Option String)
    (args : List String) (s : σ) : Except CliErr σ :=
  match jobs cpu opt with
  | .error e => .error e
  | .ok t =>
    match P.cliexecute default args (setThreads s t) with
    | .error e => .error (.other e)
    | .ok s => .ok s

/-- what an update hands to the event loop: the objects, their solver targets, the graph and the number of workers -/
abbrev Started := List Nat × List Solver.DTarget × Solver.Graph × Nat

/-- A process that builds targets: its core, the cache of core.py:109-120, the entry `threads` of `runtime`, the arguments of routines, and
the updates started so far. -/
structure RunSt where
  core : Reg
  cache : Cache
  threads : Option (Option Int)
  args : Nat → List String
  started : List Started

/-- the actions that start an update: core.py:330-331, 364-397, 421-423.  `recurse_update` without arguments has `threads=1`. -/
def buildAct (canon : String → String) (setOrder : List Nat → List Nat) (order : Nat → List Nat → List Nat) (lim : Nat)
    (other : Call → RunSt → Except Err RunSt) (k : Call) (s : RunSt) : Except Err (RunSt × Unit) :=
  let start (args : Nat → List String) (r : Except Err Started) : Except Err (RunSt × Unit) := do
    let r ← r
    .ok ({ s with args := args, started := s.started ++ [r] }, ())
  if k.action = "recurse_update_get_args" then
    start s.args (recurseUpdateGetArgs canon s.core setOrder order lim s.cache s.threads k.obj)
  else if k.action = "recurse_update" then
    start s.args (recurseUpdate canon s.core setOrder order lim s.cache s.threads k.obj (some 1))
  else if k.action = "invoke_routine" then
    let r := invokeRoutine canon s.core setOrder order lim s.cache s.threads s.args k.obj k.args
    start r.1 r.2
  else do
    let s ← other k s
    .ok (s, ())

/-- The program: `routine`, `actions`, `hasattr` and `eval` as in `Prog`.  All other actions are arbitrary (`other`). -/
def buildProg (canon : String → String) (setOrder : List Nat → List Nat) (order : Nat → List Nat → List Nat) (lim : Nat)
    (routine : Nat → Bool) (actions : Nat → List String) (hasattr : Nat → String → Bool) (eval : RunSt → Except Err RunSt)
    (other : Call → RunSt → Except Err RunSt) : Prog RunSt Unit where
  canon := canon
  core := (·.core)
  setCore s c := { s with core := c }
  routine := routine
  actions := actions
  eval := eval
  hasattr := hasattr
  act := buildAct canon setOrder order lim other

def RunSt.setThreads (s : RunSt) (t : Option Int) : RunSt := { s with threads := some t }

/-! ### specification: numbers as texts -/

/-- the digits `s` give `n`; an underscore may separate two digits -/
inductive Digits : List Char → Nat → Prop
  | one {d : Char} : d.isDigit = true → Digits [d] (d.toNat - '0'.toNat)
  | more {s : List Char} {n : Nat} {d : Char} : Digits s n → d.isDigit = true → Digits (s ++ [d]) (10 * n + (d.toNat - '0'.toNat))
  | under {s : List Char} {n : Nat} {d : Char} : Digits s n → d.isDigit = true →
      Digits (s ++ ['_', d]) (10 * n + (d.toNat - '0'.toNat))

/-- a blank, a tabulator, or a character that ends a line or a page: the codes 9 to 13 and 32 -/
def Space (ch : Char) : Prop := ch.toNat = 32 ∨ 9 ≤ ch.toNat ∧ ch.toNat ≤ 13

/-- the text `s` denotes the number `z`: digits, perhaps with a sign, and space around them -/
inductive Denotes : List Char → Int → Prop
  | mk {before sign ds after : List Char} {n : Nat} {z : Int} : (∀ ch ∈ before, Space ch) → (∀ ch ∈ after, Space ch) →
      Digits ds n → ((sign = [] ∨ sign = ['+']) ∧ z = n ∨ sign = ['-'] ∧ z = -n) → Denotes (before ++ sign ++ ds ++ after) z

/-! ### `int` -/

theorem digits_run (s : List Char) : ∀ n b, s.foldlM digitStep (0, false) = some (n, b) →
    (b = true → Digits s n) ∧ (b = false → s = [] ∧ n = 0 ∨ ∃ s', s = s' ++ ['_'] ∧ Digits s' n) := by
  induction s using List.reverseRecOn with
  | nil => rintro n b h; cases h; simp
  | append_singleton s ch ih =>
    intro n b h
    rw [List.foldlM_append] at h
    cases h1 : s.foldlM digitStep (0, false) with
    | none => rw [h1] at h; cases h
    | some p =>
      obtain ⟨m, b'⟩ := p
      rw [h1] at h
      obtain ⟨ih1, ih2⟩ := ih m b' h1
      simp only [List.foldlM_cons, List.foldlM_nil, bind, Option.bind, pure] at h
      unfold digitStep at h
      split at h
      · cases h
      · rename_i q hq
        cases h
        split at hq
        · rename_i hd
          cases hq
          refine ⟨fun _ => ?_, fun h => by cases h⟩
          cases b' with
          | true => exact .more (ih1 rfl) hd
          | false =>
            rcases ih2 rfl with ⟨rfl, rfl⟩ | ⟨s', rfl, h'⟩
            · simpa using Digits.one hd
            · have := Digits.under h' hd
              simpa using this
        · split at hq
          · rename_i hu
            cases hq
            obtain ⟨rfl, rfl⟩ := hu
            exact ⟨(fun h => by cases h), fun _ => Or.inr ⟨s, rfl, ih1 rfl⟩⟩
          · cases hq

theorem digits_of {s : List Char} {n : Nat} (h : Digits s n) : s.foldlM digitStep (0, false) = some (n, true) := by
  induction h with
  | one hd => simp [digitStep, hd]
  | more _ hd ih => rw [List.foldlM_append, ih]; simp [digitStep, hd]
  | under _ hd ih => rw [List.foldlM_append, ih]; simp [digitStep, hd]

theorem digits_iff {s : List Char} {n : Nat} : digits s = some n ↔ Digits s n := by
  constructor
  · intro h
    unfold digits at h
    split at h
    · rename_i m hm
      cases h
      exact (digits_run s _ _ hm).1 rfl
    · cases h
  · intro h
    unfold digits
    rw [digits_of h]

/-- a number begins and ends with a digit -/
theorem Digits.ends {s : List Char} {n : Nat} (h : Digits s n) :
    (∃ d r, s = d :: r ∧ d.isDigit = true) ∧ ∃ d r, s = r ++ [d] ∧ d.isDigit = true := by
  induction h with
  | one hd => exact ⟨⟨_, _, rfl, hd⟩, _, [], rfl, hd⟩
  | more _ hd ih =>
    obtain ⟨⟨d, r, rfl, h1⟩, _⟩ := ih
    exact ⟨⟨d, _, rfl, h1⟩, _, _, rfl, hd⟩
  | @under s n d _ hd ih =>
    obtain ⟨⟨d', r, rfl, h1⟩, _⟩ := ih
    exact ⟨⟨d', _, rfl, h1⟩, d, (d' :: r) ++ ['_'], by simp, hd⟩

theorem not_blank {d : Char} (h : d.isDigit = true) : blank d = false := by
  rw [← Bool.not_eq_true]
  intro hb
  unfold blank at hb
  simp only [List.mem_cons, List.not_mem_nil, or_false, decide_eq_true_eq] at hb
  rcases hb with rfl | rfl | rfl | rfl | rfl | rfl <;> revert h <;> decide

theorem blank_iff {ch : Char} : blank ch = true ↔ Space ch := by
  have hc : ∀ d : Char, ch = d ↔ ch.toNat = d.toNat := fun d => ⟨fun h => by rw [h], fun h => Char.ext (UInt32.toNat_inj.1 h)⟩
  unfold blank Space
  simp only [List.mem_cons, List.not_mem_nil, or_false, decide_eq_true_eq, hc]
  have h : ' '.toNat = 32 ∧ '\t'.toNat = 9 ∧ '\n'.toNat = 10 ∧ '\r'.toNat = 13 ∧ '\x0b'.toNat = 11 ∧ '\x0c'.toNat = 12 := by decide
  obtain ⟨h1, h2, h3, h4, h5, h6⟩ := h
  rw [h1, h2, h3, h4, h5, h6]
  omega

theorem dropWhile_blank {a b : List Char} {ch : Char} (ha : ∀ x ∈ a, blank x = true) (hc : blank ch = false) :
    (a ++ ch :: b).dropWhile blank = ch :: b := by
  induction a with
  | nil => simp [hc]
  | cons x a ih =>
    rw [List.cons_append, List.dropWhile_cons, ha x List.mem_cons_self, if_pos rfl]
    exact ih fun y hy => ha y (List.mem_cons_of_mem _ hy)

/-- stripping removes the space at both ends, whatever remains begins and ends with something else -/
theorem strip_eq {a m b : List Char} (ha : ∀ x ∈ a, blank x = true) (hb : ∀ x ∈ b, blank x = true)
    (h1 : ∃ c r, m = c :: r ∧ blank c = false) (h2 : ∃ c r, m = r ++ [c] ∧ blank c = false) :
    (((a ++ m ++ b).dropWhile blank).reverse.dropWhile blank).reverse = m := by
  obtain ⟨c, r, rfl, hc⟩ := h1
  rw [List.append_assoc, List.cons_append, dropWhile_blank ha hc]
  obtain ⟨c', r', e, hc'⟩ := h2
  rw [← List.cons_append, e, List.append_assoc, List.reverse_append, List.singleton_append, List.reverse_cons, List.append_assoc,
    List.singleton_append, dropWhile_blank (fun x hx => hb x (List.mem_reverse.1 hx)) hc']
  simp

theorem strip_split (s : List Char) : ∃ a b, s = a ++ ((s.dropWhile blank).reverse.dropWhile blank).reverse ++ b ∧
    (∀ x ∈ a, blank x = true) ∧ ∀ x ∈ b, blank x = true := by
  refine ⟨s.takeWhile blank, ((s.dropWhile blank).reverse.takeWhile blank).reverse, ?_, fun x hx => List.all_eq_true.1 List.all_takeWhile x hx,
    fun x hx => List.all_eq_true.1 List.all_takeWhile x (List.mem_reverse.1 hx)⟩
  rw [List.append_assoc, ← List.reverse_append, List.takeWhile_append_dropWhile, List.reverse_reverse,
    List.takeWhile_append_dropWhile]

/-- `int` gives a number exactly for the texts that denote one -/
theorem pyInt_iff {s : List Char} {z : Int} : pyInt s = some z ↔ Denotes s z := by
  constructor
  · intro h
    obtain ⟨a, b, e, ha, hb⟩ := strip_split s
    replace ha := fun x hx => blank_iff.1 (ha x hx)
    replace hb := fun x hx => blank_iff.1 (hb x hx)
    unfold pyInt at h
    split at h
    · rename_i r hr
      obtain ⟨n, hn, rfl⟩ := Option.map_eq_some_iff.1 h
      rw [hr] at e
      rw [e, show a ++ '-' :: r ++ b = a ++ ['-'] ++ r ++ b by simp]
      exact .mk ha hb (digits_iff.1 hn) (Or.inr ⟨rfl, rfl⟩)
    · rename_i r hr
      obtain ⟨n, hn, rfl⟩ := Option.map_eq_some_iff.1 h
      rw [hr] at e
      rw [e, show a ++ '+' :: r ++ b = a ++ ['+'] ++ r ++ b by simp]
      exact .mk ha hb (digits_iff.1 hn) (Or.inl ⟨Or.inr rfl, rfl⟩)
    · obtain ⟨n, hn, rfl⟩ := Option.map_eq_some_iff.1 h
      rw [e, show ∀ m : List Char, a ++ m ++ b = a ++ [] ++ m ++ b by simp]
      exact .mk ha hb (digits_iff.1 hn) (Or.inl ⟨Or.inl rfl, rfl⟩)
  · rintro ⟨ha, hb, hd, hs⟩
    rename_i a sign ds b n
    replace ha := fun x hx => blank_iff.2 (ha x hx)
    replace hb := fun x hx => blank_iff.2 (hb x hx)
    obtain ⟨⟨d, r, e1, h1⟩, d', r', e2, h2⟩ := hd.ends
    have hst : (((a ++ sign ++ ds ++ b).dropWhile blank).reverse.dropWhile blank).reverse = sign ++ ds := by
      rw [List.append_assoc a sign ds]
      refine strip_eq ha hb ?_ ⟨d', sign ++ r', by rw [e2, List.append_assoc], not_blank h2⟩
      rcases hs with ⟨rfl | rfl, _⟩ | ⟨rfl, _⟩
      · exact ⟨d, r, e1, not_blank h1⟩
      · exact ⟨'+', ds, rfl, by decide⟩
      · exact ⟨'-', ds, rfl, by decide⟩
    unfold pyInt
    rw [hst]
    rcases hs with ⟨rfl | rfl, rfl⟩ | ⟨rfl, rfl⟩
    · rw [List.nil_append]
      have hn := digits_iff.2 hd
      rw [e1] at hn ⊢
      split
      · rename_i h; cases h; exact absurd h1 (by decide)
      · rename_i h; cases h; exact absurd h1 (by decide)
      · rw [hn]; rfl
    · simp [digits_iff.2 hd]
    · simp [digits_iff.2 hd]

/-! ### C120 -/

theorem j_denotes_nothing (z : Int) : ¬ Denotes "j".toList z := by
  intro h
  have h1 := pyInt_iff.2 h
  have h2 : pyInt "j".toList = none := by decide
  rw [h2] at h1
  cases h1

theorem jobs_number {cpu : Option Nat} {opt : String} {z : Int} (h : Denotes opt.toList z) : jobs cpu opt = .ok (some z) := by
  unfold jobs
  rw [if_neg (by rintro rfl; exact j_denotes_nothing z h), pyInt_iff.2 h]

/-- the number of workers that a command line asks for: the number given, or that of the processors -/
def Wants (cpu : Option Nat) (opt : String) (z : Int) : Prop :=
  Denotes opt.toList z ∨ opt = "j" ∧ ∃ n : Nat, cpu = some n ∧ z = n

variable {canon : String → String} {setOrder : List Nat → List Nat} {order : Nat → List Nat → List Nat} {lim : Nat}
  {routine : Nat → Bool} {actions : Nat → List String} {hasattr : Nat → String → Bool} {eval : RunSt → Except Err RunSt}
  {other : Call → RunSt → Except Err RunSt}

/-- `buildAct` with a number in `runtime` -/
theorem buildAct_started {k : Call} {s s' : RunSt} {z : Int} (hz : s.threads = some (some z))
    (hk : k.action ∈ ["recurse_update_get_args", "recurse_update", "invoke_routine"])
    (h : buildAct canon setOrder order lim other k s = .ok (s', ())) :
    ∃ r, recurseUpdate canon s.core setOrder order lim s.cache none k.obj (some z) = .ok r ∧
      s'.started = s.started ++ [r] := by
  have hru : ∀ t, recurseUpdate canon s.core setOrder order lim s.cache (some (some z)) k.obj t =
      recurseUpdate canon s.core setOrder order lim s.cache none k.obj (some z) := fun _ => rfl
  have hrg : recurseUpdateGetArgs canon s.core setOrder order lim s.cache (some (some z)) k.obj =
      recurseUpdate canon s.core setOrder order lim s.cache none k.obj (some z) := rfl
  unfold buildAct invokeRoutine at h
  simp only [hz, hru, hrg, bind, Except.bind] at h
  cases hr : recurseUpdate canon s.core setOrder order lim s.cache none k.obj (some z) with
  | error e =>
    rw [hr] at h
    simp only [List.mem_cons, List.not_mem_nil, or_false] at hk
    rcases hk with e | e | e <;> simp [e] at h
  | ok r =>
    refine ⟨r, rfl, ?_⟩
    rw [hr] at h
    simp only [List.mem_cons, List.not_mem_nil, or_false] at hk
    rcases hk with e | e | e <;> simp [e] at h <;> rw [← h]

/-- C120: the number given with `-j` is the number of workers.  If a command line asks for the action `k` that starts an update, in
whatever way, the update has as many workers as the command line says (`Wants`), for the same targets whatever the number
is.  So at most that many targets are made at a time, and if the number is positive (and no work function raises) the build comes to
an end.  (If it is not positive, the build does not return, see C10.) -/
theorem C120_jobs (hc : Idempotent canon) (ho : Solver.IsOrder order)
    (heval : ∀ s s', eval s = .ok s' → s'.core = s.core ∧ s'.cache = s.cache ∧ s'.threads = s.threads ∧ s'.started = s.started)
    {cpu : Option Nat} {opt : String} {z : Int} (hz : Wants cpu opt z) {default : Option String} {args : List String} {s s' : RunSt}
    {k : Call}
    (hk : Asks (buildProg canon setOrder order lim routine actions hasattr eval other) s.core default args k)
    (ha : k.args = [] ∨ ∃ t, args = t :: k.args ∧ routine k.obj = true ∧ Resolves canon s.core t k.obj)
    (hact : k.action ∈ ["recurse_update_get_args", "recurse_update", "invoke_routine"])
    (h : (buildProg canon setOrder order lim routine actions hasattr eval other).cliJobs RunSt.setThreads cpu opt default args s =
      .ok s') :
    ∃ c objs ds g, SameMeaning canon s.core c ∧ s'.started = s.started ++ [(objs, ds, g, z.toNat)] ∧
      (∀ y : Int, recurseUpdate canon c setOrder order lim s.cache none k.obj (some y) = .ok (objs, ds, g, y.toNat)) ∧
      ∀ tr st, Solver.Exec g z.toNat tr st →
        (∀ (pre post : List Solver.Ev) (l : List Nat), tr = pre ++ post → l.Nodup → (∀ t ∈ l, Solver.Running pre t) → l.length ≤ z.toNat) ∧
        (0 < z → (∀ w t, Solver.Ev.finish w t .raise ∉ tr) → (∀ e, Solver.step g st e = none) → st.returned) ∧
        (z ≤ 0 → ¬ st.returned) := by
  have hj : jobs cpu opt = .ok (some z) := by
    rcases hz with hz | ⟨rfl, n, rfl, rfl⟩
    · exact jobs_number hz
    · rfl
  unfold Prog.cliJobs at h
  rw [hj] at h
  dsimp only at h
  have hk' : Asks (buildProg canon setOrder order lim routine actions hasattr eval other)
      ((buildProg canon setOrder order lim routine actions hasattr eval other).core (s.setThreads (some z))) default args k := hk
  obtain ⟨s1, h1, h2, h3⟩ := (C62_dispatch _ hc (fun _ _ => rfl) default args (s.setThreads (some z))).1 k hk' ha
  unfold Prog.cliexecute at h
  rw [h3] at h
  have hs1 : s1.cache = s.cache ∧ s1.threads = some (some z) ∧ s1.started = s.started := by
    rcases h2 with rfl | ⟨c', rfl⟩ <;> exact ⟨rfl, rfl, rfl⟩
  unfold Prog.invoke at h
  simp only [bind, Except.bind] at h
  cases he : (buildProg canon setOrder order lim routine actions hasattr eval other).eval s1 with
  | error e => rw [he] at h; cases h
  | ok s2 =>
    obtain ⟨e1, e2, e3, e4⟩ := heval s1 s2 he
    rw [he] at h
    dsimp only at h
    by_cases hh : (buildProg canon setOrder order lim routine actions hasattr eval other).hasattr k.obj k.action = true
    · rw [if_pos hh] at h
      cases hp : (buildProg canon setOrder order lim routine actions hasattr eval other).act k s2 with
      | error e => rw [hp] at h; cases h
      | ok p =>
        obtain ⟨s3, u⟩ := p
        rw [hp] at h
        have h : s3 = s' := by cases h; rfl
        subst h
        obtain ⟨⟨objs, ds, g, n⟩, h5, h6⟩ := buildAct_started (e3.trans hs1.2.1) hact hp
        obtain ⟨cache', h7, h8, w, h9, rfl⟩ := recurseUpdate_ok h5
        cases h9
        rw [e2, hs1.1] at h5 h7
        refine ⟨s2.core, objs, ds, g, e1 ▸ h1, by rw [h6, e4, hs1.2.2], fun y => ?_, fun tr st hx => ⟨?_, ?_, ?_⟩⟩
        · unfold recurseUpdate
          simp only [bind, Except.bind, h7, threadCount, mkSolver, h8]
        · intro pre post l e hl hr
          exact Solver.C09_parallelism ho h8 hx pre post e l hl hr
        · intro hpos hnr hmax
          exact Solver.C07_maximal_returned ho h8 (by omega) hx hnr hmax
        · intro hle
          rw [Int.toNat_of_nonpos hle] at hx
          exact (Solver.C10_violated ho h8 hx).2.1
    · rw [if_neg hh] at h; cases h

/-- C120, the other texts: nothing is evaluated or called, the process ends with a `ValueError` and leaves everything as it was. -/
theorem C120_no_number (P : Prog σ ρ) (setThreads : σ → Option Int → σ) (cpu : Option Nat) {opt : String} (hj : opt ≠ "j")
    (hn : ∀ z, ¬ Denotes opt.toList z) (default : Option String) (args : List String) (s : σ) :
    P.cliJobs setThreads cpu opt default args s = .error .value := by
  have : pyInt opt.toList = none := by
    cases h : pyInt opt.toList with
    | none => rfl
    | some z => exact absurd (pyInt_iff.1 h) (hn z)
  unfold Prog.cliJobs jobs
  rw [if_neg hj, this]

/-! ### an example -/

/-- the chain of `chainOps`; `c` is a routine, the others are updated by default -/
def jobsProg : Prog RunSt Unit :=
  buildProg id id Solver.idOrder 10 (fun o => o = 2) (fun _ => ["recurse_update"]) (fun _ _ => true) .ok fun _ s => .ok s

def jobsSt : RunSt where
  core := (Core.add (Core.add (Core.add Reg.empty ⟨"a", [], true, [], "recurse_update_get_args"⟩).1
    ⟨"b", ["a"], true, [], "recurse_update_get_args"⟩).1 ⟨"c", ["b"], true, [], "invoke_routine"⟩).1
  cache := []
  threads := none
  args _ := []
  started := []

/-- the numbers of objects and of workers of the updates started -/
def startedBy (r : Except CliErr RunSt) : Option (List (Nat × Nat)) :=
  match r with
  | .ok s => some (s.started.map fun x => (x.1.length, x.2.2.2))
  | .error _ => none

/-- the hypotheses of `C120_jobs` hold for `licant -j " +1_2" b`, `licant c x -j 3` and `licant recurse_update`, where `b` is the default
target and there are 8 processors -/
example : Idempotent (id : String → String) ∧
    Wants (some 8) " +1_2" 12 ∧ Wants (some 8) "3" 3 ∧ Wants (some 8) "j" 8 ∧
    Asks jobsProg jobsSt.core (some "b") ["b"] ⟨1, "recurse_update_get_args", []⟩ ∧
    Asks jobsProg jobsSt.core (some "b") ["c", "x"] ⟨2, "invoke_routine", ["x"]⟩ ∧
    Asks jobsProg jobsSt.core (some "b") ["recurse_update"] ⟨1, "recurse_update", []⟩ ∧
    startedBy (jobsProg.cliJobs RunSt.setThreads (some 8) " +1_2" (some "b") ["b"] jobsSt) = some [(2, 12)] ∧
    startedBy (jobsProg.cliJobs RunSt.setThreads (some 8) "3" (some "b") ["c", "x"] jobsSt) = some [(3, 3)] ∧
    startedBy (jobsProg.cliJobs RunSt.setThreads (some 8) "j" (some "b") ["recurse_update"] jobsSt) = some [(2, 8)] := by
  refine ⟨fun _ => rfl, Or.inl (pyInt_iff.1 (by decide +kernel)), Or.inl (pyInt_iff.1 (by decide +kernel)), Or.inr ⟨rfl, 8, rfl, rfl⟩,
    .target (Or.inl rfl), .routine (Or.inl rfl) rfl, .defaultAction rfl ?_ (Or.inl rfl) (by decide), ?_, ?_, ?_⟩
  · rintro o' (h | ⟨_, h⟩) <;> cases h
  all_goals decide +kernel

/-- the hypotheses of `C120_no_number` hold for `-j many`, `-j 1__2`, `-j 2.5` and `-j ""` -/
example : ∀ opt ∈ ["many", "1__2", "2.5", "_1", "-", ""], opt ≠ "j" ∧ ∀ z, ¬ Denotes opt.toList z := by
  intro opt ho
  have h : opt ≠ "j" ∧ pyInt opt.toList = none := by revert opt; decide +kernel
  exact ⟨h.1, fun z hz => by rw [pyInt_iff.2 hz] at h; cases h.2⟩

end Licant.Misc
