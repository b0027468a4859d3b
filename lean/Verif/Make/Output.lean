/-
What is printed while commands run at the same time.  C154.
-/
import Mathlib.Data.List.Basic

set_option autoImplicit false

namespace Licant.Make.Output

/-! ### model -/

/-- What a thread does that matters for the text on the screen: take and give back the lock `_rlock` (make.py:17), write to
`sys.stdout`.  A write is not interrupted by other threads (the interpreter lock); a `print` makes several of them. -/
inductive Act where
  | acquire
  | write (text : String)
  | release
deriving DecidableEq

/-- Python's `print(*args, end=end)`: each argument, the blanks between them and `end` are written one after the other -/
def printCall (args : List String) (fin : String) : List String := args.intersperse " " ++ [fin]

/-- a `print` without the lock: make.py:79 (`DirectoryKeeper`), 154-158 (`warn_if_not_exist`), core.py and solver.py -/
def bare (ws : List String) : List Act := ws.map .write

/-- make.py:23-29 `sprint`: a `print` with the lock.  Simplification: printing does not fail. -/
def sprint (ws : List String) : List Act := [.acquire] ++ ws.map .write ++ [.release]

/-- the prints of `do_execute` (make.py:20-60): the message or the rule unless `quite` is set (35-44), then what the command wrote on its standard
output and on its standard error (52-55).  Flushing writes nothing. -/
def executePrints (msg : Option (List String)) (out err : String) : List (List String) :=
  (match msg with
    | some args => [printCall args "\n"]
    | none => []) ++ [printCall [out] "", printCall [err] ""]

/-- what the thread that runs these commands one after the other does -/
def thread (prints : List (List String)) : List Act := prints.flatMap sprint

/-- the threads with what they have still to do, who has the lock, and what has been written, with the writer -/
structure St where
  todo : Nat → List Act
  lock : Option Nat
  out : List (Nat × String)

/-- `threading.RLock`, which no thread takes twice here, and `sys.stdout` -/
inductive Step : St → St → Prop
  | acquire {s : St} {t : Nat} {as : List Act} : s.todo t = .acquire :: as → s.lock = none →
      Step s { s with todo := fun u => if u = t then as else s.todo u, lock := some t }
  | write {s : St} {t : Nat} {w : String} {as : List Act} : s.todo t = .write w :: as →
      Step s { s with todo := fun u => if u = t then as else s.todo u, out := s.out ++ [(t, w)] }
  | release {s : St} {t : Nat} {as : List Act} : s.todo t = .release :: as → s.lock = some t →
      Step s { s with todo := fun u => if u = t then as else s.todo u, lock := none }

/-- every schedule -/
inductive Run (s0 : St) : St → Prop
  | nil : Run s0 s0
  | snoc {s s' : St} : Run s0 s → Step s s' → Run s0 s'

/-- the threads begin -/
def begin (prog : Nat → List Act) : St := ⟨prog, none, []⟩

/-- the text on the screen -/
def St.text (s : St) : String := String.join (s.out.map (·.2))

/-! ### specification -/

/-- The output `out` consists of whole prints, those of each thread `t` being `prints t` in this order: `L` lists them as they appear on the screen. -/
def Whole (prints : Nat → List (List String)) (out : List (Nat × String)) : Prop :=
  ∃ L : List (Nat × List String), out = L.flatMap (fun p => p.2.map fun w => (p.1, w)) ∧
    ∀ t, (L.filter fun p => p.1 = t).map (·.2) = prints t

/-- a command that is run: its message (`none` if `quite` is set), and what it writes on its standard output and standard error -/
structure Told where
  msg : Option (List String)
  out : String
  err : String

/-- what should be shown for a command: the message with a new line, and the outputs -/
def Told.shown (c : Told) : String :=
  (match c.msg with
    | some args => " ".intercalate args ++ "\n"
    | none => "") ++ c.out ++ c.err

/-- what the thread `t` has written -/
def St.textOf (s : St) (t : Nat) : String := String.join ((s.out.filter fun p => p.1 = t).map (·.2))

/-! ### proofs -/

/-- what is true while the threads run: `L` has been printed completely, and `cur` is being printed by the thread that has the lock -/
structure Inv (prints : Nat → List (List String)) (s : St) (L : List (Nat × List String)) (rest : Nat → List (List String))
    (cur : Option (Nat × List String × List String)) : Prop where
  out : s.out = L.flatMap (fun p => p.2.map fun w => (p.1, w)) ++
    (match cur with | none => [] | some (t, done, _) => done.map fun w => (t, w))
  lock : s.lock = cur.map (·.1)
  todo : ∀ t, s.todo t = (match cur with
    | some (u, _, ws) => if t = u then ws.map .write ++ [.release] else []
    | none => []) ++ (rest t).flatMap sprint
  done : ∀ t, prints t = (L.filter fun p => p.1 = t).map (·.2) ++ (match cur with
    | some (u, d, ws) => if t = u then [d ++ ws] else []
    | none => []) ++ rest t

theorem inv_run {prints : Nat → List (List String)} {s : St} (h : Run (begin fun t => thread (prints t)) s) :
    ∃ L rest cur, Inv prints s L rest cur := by
  induction h with
  | nil => exact ⟨[], prints, none, rfl, rfl, fun t => rfl, fun t => rfl⟩
  | @snoc s s' _ hst ih =>
    obtain ⟨L, rest, cur, hI⟩ := ih
    cases hst with
    | @acquire t as htodo hlock =>
      cases cur with
      | some c => have := hI.lock; rw [hlock] at this; cases this
      | none =>
        have h1 := hI.todo t
        rw [htodo] at h1
        simp only [List.nil_append] at h1
        cases hr : rest t with
        | nil => rw [hr] at h1; cases h1
        | cons p ps =>
          rw [hr] at h1
          simp only [List.flatMap_cons, sprint, List.cons_append, List.nil_append, List.cons.injEq, true_and] at h1
          refine ⟨L, fun u => if u = t then ps else rest u, some (t, [], p), ?_, ?_, ?_, ?_⟩
          · have := hI.out
            simpa using this
          · rfl
          · intro u
            by_cases hu : u = t
            · subst hu
              simp only [if_true]
              rw [h1]
            · simp only [hu, if_false, List.nil_append]
              have := hI.todo u
              simpa using this
          · intro u
            have := hI.done u
            by_cases hu : u = t
            · subst hu
              rw [this, hr]
              simp
            · simp only [hu, if_false]
              simpa using this
    | @write t w as htodo =>
      have h1 := hI.todo t
      rw [htodo] at h1
      cases cur with
      | none =>
        simp only [List.nil_append] at h1
        cases hr : rest t with
        | nil => rw [hr] at h1; cases h1
        | cons p ps => rw [hr] at h1; simp [sprint] at h1
      | some c =>
        obtain ⟨u, d, ws⟩ := c
        by_cases htu : t = u
        · subst htu
          simp only [if_true] at h1
          cases ws with
          | nil => simp at h1
          | cons w' ws =>
            simp only [List.map_cons, List.cons_append, List.cons.injEq, Act.write.injEq] at h1
            obtain ⟨rfl, h1⟩ := h1
            refine ⟨L, rest, some (t, d ++ [w], ws), ?_, ?_, ?_, ?_⟩
            · have := hI.out
              simp only at this ⊢
              rw [this]
              simp
            · exact hI.lock
            · intro v
              by_cases hv : v = t
              · subst hv
                simp only [if_true]
                exact h1
              · have := hI.todo v
                simp only [hv, if_false] at this ⊢
                exact this
            · intro v
              have := hI.done v
              simpa using this
        · simp only [htu, if_false, List.nil_append] at h1
          cases hr : rest t with
          | nil => rw [hr] at h1; cases h1
          | cons p ps => rw [hr] at h1; simp [sprint] at h1
    | @release t as htodo hlock =>
      cases cur with
      | none => have := hI.lock; rw [hlock] at this; cases this
      | some c =>
        obtain ⟨u, d, ws⟩ := c
        have : t = u := by have := hI.lock; rw [hlock] at this; simpa using this
        subst this
        have h1 := hI.todo t
        rw [htodo] at h1
        simp only [if_true] at h1
        cases ws with
        | cons w ws => simp at h1
        | nil =>
          simp only [List.map_nil, List.nil_append, List.cons_append, List.cons.injEq, true_and] at h1
          refine ⟨L ++ [(t, d)], rest, none, ?_, rfl, ?_, ?_⟩
          · have := hI.out
            simp only at this ⊢
            rw [this]
            simp
          · intro v
            by_cases hv : v = t
            · subst hv
              simp only [if_true, List.nil_append]
              exact h1
            · have := hI.todo v
              simp only [hv, if_false] at this ⊢
              exact this
          · intro v
            have := hI.done v
            by_cases hv : v = t
            · subst hv
              rw [this]
              simp
            · have hv' : ¬ t = v := fun h => hv h.symm
              simp only [hv, if_false] at this
              rw [this]
              simp [hv']

/-- **C154**, what holds: any number of threads, each running any commands.  When all are done, the screen shows whole prints: each message, each standard
output and each standard error of a command in one piece, nothing lost, and those of one thread in order.
Missing: the output of a command as a whole, and what is printed without the lock (`C154_violated`). -/
theorem C154_partial {prints : Nat → List (List String)} {s : St} (h : Run (begin fun t => thread (prints t)) s)
    (hd : ∀ t, s.todo t = []) : Whole prints s.out := by
  obtain ⟨L, rest, cur, hI⟩ := inv_run h
  cases cur with
  | some c =>
    obtain ⟨u, d, ws⟩ := c
    have := hI.todo u
    rw [hd u] at this
    simp at this
  | none =>
    refine ⟨L, by simpa using hI.out, fun t => ?_⟩
    have hr : rest t = [] := by
      have := hI.todo t
      rw [hd t] at this
      cases hr : rest t with
      | nil => rfl
      | cons p ps => rw [hr] at this; simp [sprint] at this
    have := hI.done t
    rw [hr] at this
    simpa using this.symm

/-- the threads can always go on until all is printed: nobody waits for the lock for ever -/
theorem C154_goes_on {prints : Nat → List (List String)} {s : St} (h : Run (begin fun t => thread (prints t)) s)
    (hd : ∃ t, s.todo t ≠ []) : ∃ s', Step s s' := by
  obtain ⟨L, rest, cur, hI⟩ := inv_run h
  cases cur with
  | some c =>
    obtain ⟨u, d, ws⟩ := c
    have h1 := hI.todo u
    simp only [if_true] at h1
    cases ws with
    | nil => exact ⟨_, .release h1 hI.lock⟩
    | cons w ws => exact ⟨_, .write h1⟩
  | none =>
    obtain ⟨t, ht⟩ := hd
    have h1 := hI.todo t
    simp only [List.nil_append] at h1
    cases hr : rest t with
    | nil => rw [hr] at h1; exact absurd h1 ht
    | cons p ps =>
      rw [hr] at h1
      simp only [List.flatMap_cons, sprint, List.cons_append, List.nil_append] at h1
      exact ⟨_, .acquire h1 hI.lock⟩

/-! ### schedules -/

/-- the next action of thread `t`, if it can be done -/
def next (s : St) (t : Nat) : Option St :=
  match s.todo t with
  | [] => none
  | .acquire :: as => if s.lock = none then some { s with todo := fun u => if u = t then as else s.todo u, lock := some t } else none
  | .write w :: as => some { s with todo := fun u => if u = t then as else s.todo u, out := s.out ++ [(t, w)] }
  | .release :: as => if s.lock = some t then some { s with todo := fun u => if u = t then as else s.todo u, lock := none } else none

theorem next_step {s s' : St} {t : Nat} (h : next s t = some s') : Step s s' := by
  unfold next at h
  split at h
  · cases h
  · next hq =>
    split at h
    · next hl => cases h; exact .acquire hq hl
    · cases h
  · next hq => cases h; exact .write hq
  · next hq =>
    split at h
    · next hl => cases h; exact .release hq hl
    · cases h

/-- the threads go on in this order -/
def follow : St → List Nat → Option St
  | s, [] => some s
  | s, t :: ts => (next s t).bind fun s => follow s ts

theorem follow_run {s0 s s' : St} {ts : List Nat} (h0 : Run s0 s) (h : follow s ts = some s') : Run s0 s' := by
  induction ts generalizing s with
  | nil => cases h; exact h0
  | cons t ts ih =>
    unfold follow at h
    cases hn : next s t with
    | none => rw [hn] at h; cases h
    | some s1 => rw [hn] at h; exact ih (.snoc h0 (next_step hn)) h

/-- two commands that run at the same time; the first one writes also on its standard error -/
def twoPrints : Nat → List (List String)
  | 0 => executePrints (some ["CC a"]) "a1\n" "a2\n"
  | 1 => executePrints (some ["CC b"]) "b\n" ""
  | _ => []

/-- a directory is made while a command is run -/
def dirAndCommand : Nat → List Act
  | 0 => bare (printCall ["MAKEDIRS", "d"] "\n")
  | 1 => thread (executePrints (some ["CC b"]) "b\n" "")
  | _ => []

theorem toList_join (l : List String) : (String.join l).toList = l.flatMap String.toList := by
  have h : ∀ (l : List String) (a : String), (l.foldl (fun r s => r ++ s) a).toList = a.toList ++ l.flatMap String.toList := by
    intro l
    induction l with
    | nil => intro a; simp
    | cons x l ih => intro a; simp [ih]
  have := h l ""
  simpa [String.join] using this

theorem join_flatten (l : List (List String)) : String.join l.flatten = String.join (l.map String.join) := by
  apply String.toList_inj.1
  rw [toList_join, toList_join]
  induction l with
  | nil => rfl
  | cons x l ih => simp [ih]

theorem Whole.textOf {prints : Nat → List (List String)} {s : St} (h : Whole prints s.out) (t : Nat) :
    s.textOf t = String.join ((prints t).map String.join) := by
  obtain ⟨L, h1, h2⟩ := h
  unfold St.textOf
  rw [← h2 t, h1, ← join_flatten]
  congr 1
  clear h1 h2
  induction L with
  | nil => rfl
  | cons p L ih =>
    rw [List.flatMap_cons, List.filter_append, List.map_append, ih]
    by_cases hp : p.1 = t
    · rw [List.filter_cons_of_pos (by simpa using hp), List.map_cons, List.flatten_cons]
      congr 1
      rw [List.filter_eq_self.2 (by intro q hq; obtain ⟨w, _, rfl⟩ := List.mem_map.1 hq; simpa using hp), List.map_map]
      simp [Function.comp_def]
    · rw [List.filter_cons_of_neg (by simpa using hp)]
      rw [List.filter_eq_nil_iff.2 (by intro q hq; obtain ⟨w, _, rfl⟩ := List.mem_map.1 hq; simpa using hp)]
      rfl

theorem join_intersperse (args : List String) : String.join (args.intersperse " ") = " ".intercalate args := by
  apply String.toList_inj.1
  rw [toList_join, String.toList_intercalate, List.intercalate]
  induction args with
  | nil => rfl
  | cons a args ih =>
    cases args with
    | nil => simp
    | cons b args => simpa [List.intersperse] using ih

theorem told_prints (c : Told) : String.join ((executePrints c.msg c.out c.err).map String.join) = c.shown := by
  have hp : ∀ (args : List String) (fin : String), String.join (printCall args fin) = " ".intercalate args ++ fin := by
    intro args fin
    apply String.toList_inj.1
    rw [← join_intersperse, String.toList_append, toList_join, toList_join, printCall, List.flatMap_append]
    simp
  unfold executePrints Told.shown
  cases c.msg with
  | none =>
    apply String.toList_inj.1
    simp [hp]
  | some args =>
    apply String.toList_inj.1
    simp [hp]

/-- **C154**, nothing is lost: when all threads have run their commands, each thread has written the messages and outputs of its commands,
one after the other, and nothing else. -/
theorem C154_shows {cmds : Nat → List Told} {s : St}
    (h : Run (begin fun t => thread ((cmds t).flatMap fun c => executePrints c.msg c.out c.err)) s) (hd : ∀ t, s.todo t = []) (t : Nat) :
    s.textOf t = String.join ((cmds t).map Told.shown) := by
  rw [(C154_partial h hd).textOf t, List.map_flatMap]
  generalize cmds t = l
  apply String.toList_inj.1
  rw [toList_join, toList_join]
  induction l with
  | nil => rfl
  | cons c l ih =>
    rw [List.flatMap_cons, List.flatMap_append, ih, List.map_cons, List.flatMap_cons, ← told_prints c, toList_join]

/-- **C154 violated**: the outputs of two commands mixed, and a line that appears inside of another one. -/
theorem C154_violated :
    (∃ s, Run (begin fun t => thread (twoPrints t)) s ∧ (∀ t, s.todo t = []) ∧ s.text = "CC a\nCC b\na1\nb\na2\n") ∧
    ∃ s, Run (begin dirAndCommand) s ∧ (∀ t, s.todo t = []) ∧ s.text = "MAKEDIRSCC b\n d\nb\n" := by
  refine ⟨⟨_, follow_run .nil (ts := List.replicate 4 0 ++ List.replicate 4 1 ++ List.replicate 4 0 ++ List.replicate 4 1 ++ List.replicate 4 0 ++
    List.replicate 4 1) rfl, ?_, by decide +kernel⟩, _, follow_run .nil (ts := [0] ++ List.replicate 4 1 ++ List.replicate 3 0 ++
    List.replicate 8 1) rfl, ?_, by decide +kernel⟩
  · rintro (_ | _ | t) <;> rfl
  · rintro (_ | _ | t) <;> rfl

/-- Non-vacuity of C154_partial: the run of `C154_violated` shows whole prints, but those of one command are not together. -/
example : ∃ s, Run (begin fun t => thread (twoPrints t)) s ∧ (∀ t, s.todo t = []) ∧ Whole twoPrints s.out ∧
    s.text = "CC a\nCC b\na1\nb\na2\n" := by
  obtain ⟨⟨s, h1, h2, h3⟩, _⟩ := C154_violated
  exact ⟨s, h1, h2, C154_partial h1 h2, h3⟩

/-- Non-vacuity of C154_shows: the same run. -/
example : ∃ (cmds : Nat → List Told) (s : St), Run (begin fun t => thread ((cmds t).flatMap fun c => executePrints c.msg c.out c.err)) s ∧
    (∀ t, s.todo t = []) ∧ s.textOf 0 = "CC a\na1\na2\n" := by
  obtain ⟨⟨s, h1, h2, h3⟩, _⟩ := C154_violated
  have e : (fun t => thread (twoPrints t)) = fun t => thread (((fun t => if t = 0 then [⟨some ["CC a"], "a1\n", "a2\n"⟩] else
      if t = 1 then [⟨some ["CC b"], "b\n", ""⟩] else [] : Nat → List Told) t).flatMap fun c => executePrints c.msg c.out c.err) := by
    funext t
    rcases t with _ | _ | t <;> simp [twoPrints]
  rw [e] at h1
  exact ⟨_, s, h1, h2, by rw [C154_shows h1 h2]; decide +kernel⟩

end Licant.Make.Output
