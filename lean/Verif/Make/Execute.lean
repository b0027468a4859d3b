/-
C86 and C102: `do_execute` of licant/make.py, which runs one command of a build.

The command is a process of its own, connected with licant by two pipes of bounded capacity.
-/
import Mathlib.Logic.Relation
import Verif.Solver.Props

set_option autoImplicit false

namespace Licant.Make.Proc
open Relation

/-! ### model -/

/-- the two pipes of make.py:46-47 -/
inductive Stream where
  | out | err
  deriving DecidableEq, Repr

/-- What a command does: the bytes it writes, in order, to its standard output and standard error, and its exit status.
Simplified: the command reads no input, ends by itself if it can write everything, and processes started by it do not
outlive it. -/
structure Child where
  writes : List (Stream × UInt8)
  status : Int

/-- make.py:52, 54 `bytes.decode("utf-8")`; `none` is `UnicodeDecodeError` -/
def decode (l : List UInt8) : Option String := String.fromUTF8? ⟨l.toArray⟩

/-- where the call of do_execute is -/
inductive Phase where
  /-- make.py:50, in `proc.wait()` -/
  | waiting
  /-- make.py:52, before reading standard output to its end -/
  | readOut
  /-- make.py:54, `printed` was printed by line 52 -/
  | readErr (printed : String)
  /-- make.py:60, the call returned; what lines 52 and 54 printed and the value returned -/
  | returned (printed : String × String) (value : Bool)
  /-- an exception left the call -/
  | raised
  deriving DecidableEq, Repr

/-- the state of the call and of the command: what the command has still to write, whether it has ended, the contents of
the two pipes -/
structure St where
  todo : List (Stream × UInt8)
  ended : Bool
  out : List UInt8
  err : List UInt8
  phase : Phase
  deriving DecidableEq, Repr

/-- the content of a pipe -/
def St.pipe (s : St) : Stream → List UInt8
  | .out => s.out
  | .err => s.err

/-- one more byte in a pipe -/
def St.push (s : St) (c : Stream) (b : UInt8) : St :=
  match c with
  | .out => { s with out := s.out ++ [b] }
  | .err => { s with err := s.err ++ [b] }

/-- make.py:46-50: `Popen`, then `wait` -/
def start (p : Child) : St := ⟨p.writes, false, [], [], .waiting⟩

/-- make.py:52, 54: the bytes are read and printed, or cannot be decoded. `sprint` (make.py:23-29) catches the errors of
`print`, but the argument is computed before. -/
def show' (bytes : List UInt8) (next : String → Phase) : Phase :=
  match decode bytes with
  | none => .raised
  | some t => next t

/-- make.py:46-60 and the command, with pipes that hold `cap` bytes. `update_info` (56-57) is left out, it is part of the
model of the build. -/
inductive Step (cap : Nat) (p : Child) : St → St → Prop
  /-- the command writes one byte; this blocks as long as the pipe is full -/
  | write (s : St) (c : Stream) (b : UInt8) (r : List (Stream × UInt8)) : s.todo = (c, b) :: r →
      (s.pipe c).length < cap → Step cap p s { s.push c b with todo := r }
  /-- the command ends -/
  | exit (s : St) : s.todo = [] → s.ended = false → Step cap p s { s with ended := true }
  /-- make.py:50: `wait` returns when the command has ended -/
  | wait (s : St) : s.phase = .waiting → s.ended = true → Step cap p s { s with phase := .readOut }
  /-- make.py:52: standard output is read to its end, which comes when the command has ended -/
  | readOut (s : St) : s.phase = .readOut → s.ended = true →
      Step cap p s { s with out := [], phase := show' s.out .readErr }
  /-- make.py:54, 60 -/
  | readErr (s : St) (o : String) : s.phase = .readErr o → s.ended = true →
      Step cap p s { s with err := [], phase := show' s.err fun e => .returned (o, e) (p.status == 0) }

/-! ### specification -/

/-- all bytes the command writes to a stream -/
def Child.text (p : Child) (c : Stream) : List UInt8 := (p.writes.filter (·.1 = c)).map (·.2)

/-- `n` steps lead from one state to another -/
inductive Steps (cap : Nat) (p : Child) : Nat → St → St → Prop
  | zero (s : St) : Steps cap p 0 s s
  | succ {n : Nat} {s t u : St} : Steps cap p n s t → Step cap p t u → Steps cap p (n + 1) s u

/-- the call is over -/
def Phase.over : Phase → Bool
  | .returned _ _ => true
  | .raised => true
  | _ => false

/-- the bytes `l` are the UTF-8 encoding of the text `o` -/
def Encodes (l : List UInt8) (o : String) : Prop := o.toUTF8.data.toList = l

/-- What the user expects of a call: it prints standard output, then standard error, and the value says whether the exit
status is 0. -/
def Expected (p : Child) (f : Phase) : Prop :=
  ∃ o e, Encodes (p.text .out) o ∧ Encodes (p.text .err) e ∧ f = .returned (o, e) (p.status == 0)

/-! ### proofs -/

theorem decode_some {l : List UInt8} {o : String} : decode l = some o ↔ Encodes l o := by
  unfold decode String.fromUTF8? Encodes
  constructor
  · intro h
    split at h
    · cases h; simp [String.fromUTF8, String.toUTF8]
    · cases h
  · intro h
    have : (⟨l.toArray⟩ : ByteArray) = o.toByteArray := by
      subst h
      simp [String.toUTF8]
    rw [this]
    simp [String.fromUTF8, o.isValidUTF8]

theorem decode_none {l : List UInt8} : decode l = none ↔ ∀ o, ¬ Encodes l o := by
  rw [Option.eq_none_iff_forall_ne_some]
  exact forall_congr' fun o => not_congr decode_some

theorem Child.text_cons {c c' : Stream} {b : UInt8} {r : List (Stream × UInt8)} {st : Int} :
    (Child.mk ((c', b) :: r) st).text c = (if c' = c then [b] else []) ++ (Child.mk r st).text c := by
  unfold Child.text
  by_cases h : c' = c <;> simp [h]

/-- the invariant -/
structure Inv (p : Child) (s : St) : Prop where
  outs : s.phase = .waiting ∨ s.phase = .readOut → s.out ++ (Child.mk s.todo p.status).text .out = p.text .out
  errs : s.phase.over = false → s.err ++ (Child.mk s.todo p.status).text .err = p.text .err
  ended : s.ended = true → s.todo = []
  after : s.phase ≠ .waiting → s.ended = true
  shown : ∀ o, s.phase = .readErr o → decode (p.text .out) = some o
  fin : s.phase.over = true → Expected p s.phase ∨
    s.phase = .raised ∧ (decode (p.text .out) = none ∨ decode (p.text .err) = none)

theorem Inv.start (p : Child) : Inv p (start p) := by
  constructor <;> simp [Proc.start, Phase.over]

theorem Inv.step {cap : Nat} {p : Child} {s t : St} (I : Inv p s) (h : Step cap p s t) : Inv p t := by
  cases h with
  | write c b r ht hc =>
    have ho := I.outs
    have he := I.errs
    rw [ht, Child.text_cons] at ho he
    have hend : s.ended = false := by
      cases hh : s.ended with
      | false => rfl
      | true => have := I.ended hh; rw [ht] at this; cases this
    cases c
    · exact ⟨by simpa [St.push] using ho, by simpa [St.push] using he, by simp [St.push, hend],
        by simpa [St.push] using I.after, by simpa [St.push] using I.shown, by simpa [St.push] using I.fin⟩
    · exact ⟨by simpa [St.push] using ho, by simpa [St.push] using he, by simp [St.push, hend],
        by simpa [St.push] using I.after, by simpa [St.push] using I.shown, by simpa [St.push] using I.fin⟩
  | exit ht he => exact ⟨I.outs, I.errs, fun _ => ht, fun _ => rfl, I.shown, I.fin⟩
  | wait hp he =>
    refine ⟨fun _ => I.outs (Or.inl hp), fun _ => I.errs (by simp [hp, Phase.over]), I.ended, fun _ => he, ?_, ?_⟩
    · intro o h; simp at h
    · intro h; simp [Phase.over] at h
  | readOut hp he =>
    have htd := I.ended he
    have ho := I.outs (Or.inr hp)
    have hr := I.errs (by simp [hp, Phase.over])
    rw [htd] at ho hr
    simp only [Child.text, List.filter_nil, List.map_nil, List.append_nil] at ho hr
    change s.out = p.text .out at ho
    change s.err = p.text .err at hr
    unfold show'
    rw [ho]
    cases hd : decode (p.text .out) with
    | none =>
      exact ⟨by simp, by simp [Phase.over], I.ended, fun _ => he, by simp, fun _ => Or.inr ⟨rfl, Or.inl hd⟩⟩
    | some o =>
      refine ⟨by simp, fun _ => ?_, I.ended, fun _ => he, ?_, by simp [Phase.over]⟩
      · simp [htd, Child.text, hr]
      · intro o' h
        simp only [Phase.readErr.injEq] at h
        rw [← h, hd]
  | readErr o hp he =>
    have htd := I.ended he
    have hr := I.errs (by simp [hp, Phase.over])
    rw [htd] at hr
    simp only [Child.text, List.filter_nil, List.map_nil, List.append_nil] at hr
    change s.err = p.text .err at hr
    have ho := I.shown o hp
    unfold show'
    rw [hr]
    cases hd : decode (p.text .err) with
    | none =>
      exact ⟨by simp, by simp [Phase.over], I.ended, fun _ => he, by simp, fun _ => Or.inr ⟨rfl, Or.inr hd⟩⟩
    | some e =>
      exact ⟨by simp, by simp [Phase.over], I.ended, fun _ => he, by simp,
        fun _ => Or.inl ⟨o, e, decode_some.1 ho, decode_some.1 hd, rfl⟩⟩

theorem Inv.of_steps {cap n : Nat} {p : Child} {s : St} (h : Steps cap p n (Proc.start p) s) : Inv p s := by
  generalize hs0 : Proc.start p = s0 at h
  induction h with
  | zero => subst hs0; exact Inv.start p
  | succ h1 h2 ih => exact (ih hs0).step h2

/-- how many steps are left at most -/
def Phase.left : Phase → Nat
  | .waiting => 3
  | .readOut => 2
  | .readErr _ => 1
  | _ => 0

def St.left (s : St) : Nat := s.todo.length + (if s.ended then 0 else 1) + s.phase.left

theorem show'_left (b : List UInt8) (f : String → Phase) (k : Nat) (h : ∀ t, (f t).left ≤ k) :
    (show' b f).left ≤ k := by
  unfold show'
  split
  · simp [Phase.left]
  · exact h _

theorem Step.left {cap : Nat} {p : Child} {s t : St} (h : Step cap p s t) : t.left + 1 ≤ s.left := by
  cases h with
  | write c b r ht hc =>
    cases c <;> simp only [St.left, St.push, ht, List.length_cons] <;> omega
  | exit ht he => simp [St.left, he]; omega
  | wait hp he => simp [St.left, hp, he, Phase.left]
  | readOut hp he =>
    have := show'_left s.out .readErr 1 (fun t => by simp [Phase.left])
    simp only [St.left, hp, he, Phase.left] at *; omega
  | readErr o hp he =>
    have := show'_left s.err (fun e => .returned (o, e) (p.status == 0)) 0 (fun t => by simp [Phase.left])
    simp only [St.left, hp, he, Phase.left] at *; omega

theorem Steps.bound {cap n : Nat} {p : Child} {s t : St} (h : Steps cap p n s t) : t.left + n ≤ s.left := by
  induction h with
  | zero => simp
  | succ h1 h2 ih => have := h2.left; omega

/-- the pipes never hold more than their capacity -/
theorem Steps.pipes {cap n : Nat} {p : Child} {s : St} (h : Steps cap p n (Proc.start p) s) (c : Stream) :
    (s.pipe c).length ≤ cap := by
  generalize hs0 : Proc.start p = s0 at h
  induction h with
  | zero => subst hs0; cases c <;> simp [St.pipe, Proc.start]
  | succ h1 h2 ih =>
    have ih := ih hs0
    cases h2 with
    | write c' b r ht hc => cases c' <;> cases c <;> simp [St.pipe, St.push] at * <;> omega
    | exit => cases c <;> simpa [St.pipe] using ih
    | wait => cases c <;> simpa [St.pipe] using ih
    | readOut => cases c <;> simp [St.pipe] at *; exact ih
    | readErr => cases c <;> simp [St.pipe] at *; exact ih

/-- If the command writes more than a pipe holds to one of the streams, the call never gets past `wait`. -/
theorem stuck {cap n : Nat} {p : Child} {s : St} (c : Stream) (hc : cap < (p.text c).length)
    (h : Steps cap p n (Proc.start p) s) : s.phase = .waiting ∧ s.todo ≠ [] := by
  generalize hs0 : Proc.start p = s0 at h
  induction h with
  | zero =>
    subst hs0
    refine ⟨rfl, fun h => ?_⟩
    simp only [Proc.start] at h
    simp [Child.text, h] at hc
  | @succ n s0 t u h1 h2 ih =>
    obtain ⟨ih1, ih2⟩ := ih hs0
    have hnd : t.ended = false := by
      cases hh : t.ended with
      | false => rfl
      | true => exact absurd ((Inv.of_steps (hs0 ▸ h1)).ended hh) ih2
    have hall : Steps cap p (n + 1) (Proc.start p) u := hs0 ▸ (Steps.succ h1 h2)
    have I := Inv.of_steps hall
    have hpipe := hall.pipes c
    have hw : u.phase = .waiting := by
      cases h2 with
      | write c' b r ht hc' => cases c' <;> exact ih1
      | exit ht he => exact absurd ht ih2
      | wait hp he => rw [hnd] at he; cases he
      | readOut hp he => rw [hnd] at he; cases he
      | readErr o hp he => rw [hnd] at he; cases he
    refine ⟨hw, fun htd => ?_⟩
    have ho := I.outs (Or.inl hw)
    have he := I.errs (by rw [hw]; rfl)
    rw [htd] at ho he
    cases c with
    | out =>
      simp only [Child.text, List.filter_nil, List.map_nil, List.append_nil] at ho
      change u.out = p.text .out at ho
      rw [← ho] at hc
      simp only [St.pipe] at hpipe
      omega
    | err =>
      simp only [Child.text, List.filter_nil, List.map_nil, List.append_nil] at he
      change u.err = p.text .err at he
      rw [← he] at hc
      simp only [St.pipe] at hpipe
      omega

/-- otherwise the call can always go on until it is over -/
theorem progress {cap n : Nat} {p : Child} {s : St} (hc : ∀ c, (p.text c).length ≤ cap)
    (h : Steps cap p n (Proc.start p) s) (hmax : ∀ t, ¬ Step cap p s t) : s.phase.over = true := by
  have I := Inv.of_steps h
  by_contra hov
  have hov : s.phase.over = false := by simpa using hov
  cases hend : s.ended with
  | true =>
    cases hp : s.phase with
    | waiting => exact hmax _ (.wait s hp hend)
    | readOut => exact hmax _ (.readOut s hp hend)
    | readErr o => exact hmax _ (.readErr s o hp hend)
    | returned a b => rw [hp] at hov; simp [Phase.over] at hov
    | raised => rw [hp] at hov; simp [Phase.over] at hov
  | false =>
    cases htd : s.todo with
    | nil => exact hmax _ (.exit s htd hend)
    | cons x r =>
      obtain ⟨c, b⟩ := x
      have hw : s.phase = .waiting := by
        by_contra hw
        rw [I.after hw] at hend; cases hend
      refine hmax _ (.write s c b r htd ?_)
      have h1 := hc c
      have ho := I.outs (Or.inl hw)
      have he := I.errs hov
      rw [htd, Child.text_cons] at ho he
      cases c with
      | out => rw [← ho] at h1; simp [St.pipe] at *; omega
      | err => rw [← he] at h1; simp [St.pipe] at *; omega

/-! ### the properties -/

/-- C86 is violated: a command that writes more bytes than a pipe holds to its standard output or its standard error never
ends, and do_execute neither returns nor raises: after at most as many steps as there are bytes nothing happens any more. -/
theorem C86_violated (cap : Nat) (p : Child) (c : Stream) (hc : cap < (p.text c).length) :
    (∀ n s, Steps cap p n (Proc.start p) s → s.phase = .waiting ∧ s.ended = false ∧ n ≤ p.writes.length) := by
  intro n s h
  obtain ⟨hw, htd⟩ := stuck c hc h
  have I := Inv.of_steps h
  have hnd : s.ended = false := by
    cases hh : s.ended with
    | false => rfl
    | true => exact absurd (I.ended hh) htd
  refine ⟨hw, hnd, ?_⟩
  have := h.bound
  simp only [St.left, hw, hnd, Proc.start] at this
  have : 0 < s.todo.length := List.length_pos_iff.2 htd
  simp at *
  omega

open scoped Classical in
/-- What holds instead: if no stream exceeds the capacity of a pipe, every execution ends, after a bounded number of steps,
and do_execute has then printed the standard output and after it the standard error, and returned whether the status is 0;
or it has raised, exactly if one of the two is not valid UTF-8. -/
theorem C86_partial (cap : Nat) (p : Child) (hc : ∀ c, (p.text c).length ≤ cap) (n : Nat) (s : St)
    (h : Steps cap p n (Proc.start p) s) :
    n ≤ p.writes.length + 4 ∧
    ((∃ t, Step cap p s t) ∨
      if (∃ o, Encodes (p.text .out) o) ∧ ∃ e, Encodes (p.text .err) e then Expected p s.phase else s.phase = .raised) := by
  constructor
  · have := h.bound
    simp [St.left, Proc.start, Phase.left] at this
    omega
  · by_cases hmax : ∃ t, Step cap p s t
    · exact Or.inl hmax
    · refine Or.inr ?_
      have hov := progress hc h (fun t ht => hmax ⟨t, ht⟩)
      rcases (Inv.of_steps h).fin hov with hE | ⟨hr, hd⟩
      · obtain ⟨o, e, ho, he, _⟩ := id hE
        rw [if_pos ⟨⟨o, ho⟩, ⟨e, he⟩⟩]
        exact hE
      · rw [if_neg]
        · exact hr
        · rintro ⟨⟨o, h1⟩, ⟨e, h2⟩⟩
          rcases hd with hd | hd
          · exact decode_none.1 hd o h1
          · exact decode_none.1 hd e h2

/-- bytes that are no text -/
example : ∀ o, ¬ Encodes [255] o := decode_none.1 (by decide +kernel)

/-- bytes that are a text of two characters -/
example : Encodes [195, 164, 98] "äb" := decode_some.1 (by decide +kernel)

/-- a command that writes `n` times the byte `x` to its standard output -/
def noisy (n : Nat) : Child := ⟨List.replicate n (.out, 120), 0⟩

theorem noisy_text (n : Nat) : (noisy n).text .out = List.replicate n 120 := by
  have : (List.replicate n (Stream.out, (120 : UInt8))).filter (·.1 = .out) = List.replicate n (.out, 120) :=
    List.filter_eq_self.2 (fun a ha => by rw [(List.mem_replicate.1 ha).2]; rfl)
  rw [Child.text, noisy, this, List.map_replicate]

/-- a compiler with 65537 bytes of output, and the pipes of Linux -/
example : 65536 < ((noisy 65537).text .out).length := by
  rw [noisy_text, List.length_replicate]; omega

/-- a command that writes a warning and fails -/
def warns : Child := ⟨[(.err, 104), (.out, 111), (.err, 105)], 1⟩

example : ∀ c, (warns.text c).length ≤ 65536 := by intro c; cases c <;> simp [warns, Child.text]

/-- the final state of the call for `warns`: "o", then "hi", and False -/
example : ∃ s, Steps 65536 warns 7 (Proc.start warns) s ∧ s.phase = .returned ("o", "hi") false := by
  have hd1 : decode [111] = some "o" := by decide +kernel
  have hd2 : decode [104, 105] = some "hi" := by decide +kernel
  let s1 : St := ⟨[(.out, 111), (.err, 105)], false, [], [104], .waiting⟩
  let s2 : St := ⟨[(.err, 105)], false, [111], [104], .waiting⟩
  let s3 : St := ⟨[], false, [111], [104, 105], .waiting⟩
  let s4 : St := ⟨[], true, [111], [104, 105], .waiting⟩
  let s5 : St := ⟨[], true, [111], [104, 105], .readOut⟩
  let s6 : St := ⟨[], true, [], [104, 105], .readErr "o"⟩
  let s7 : St := ⟨[], true, [], [], .returned ("o", "hi") false⟩
  have h1 : Step 65536 warns (Proc.start warns) s1 := .write _ .err 104 _ rfl (by simp [St.pipe, Proc.start])
  have h2 : Step 65536 warns s1 s2 := .write _ .out 111 _ rfl (by simp [St.pipe, s1])
  have h3 : Step 65536 warns s2 s3 := .write _ .err 105 _ rfl (by simp [St.pipe, s2])
  have h4 : Step 65536 warns s3 s4 := .exit _ rfl rfl
  have h5 : Step 65536 warns s4 s5 := .wait _ rfl rfl
  have h6 : Step 65536 warns s5 s6 := by
    have := Step.readOut (cap := 65536) (p := warns) s5 rfl rfl
    simpa [show', s5, hd1, s6] using this
  have h7 : Step 65536 warns s6 s7 := by
    have := Step.readErr (cap := 65536) (p := warns) s6 "o" rfl rfl
    simpa [show', s6, hd2, s7, warns] using this
  exact ⟨s7, ((((((Steps.zero _).succ h1).succ h2).succ h3).succ h4).succ h5).succ h6 |>.succ h7, rfl⟩

/-! ### a build with such a command -/

section Build
open Licant.Solver
variable {order : Nat → List Nat → List Nat} {lim n : Nat} {ts : List DTarget} {g : Graph} {tr : List Ev} {s : Solver.St}

/-- how the work function of a target ends when do_execute does; make.py:181-184, solver.py:20-21 -/
def Phase.ret : Phase → Option Ret
  | .returned _ true => some .ok
  | .returned _ false => some .fail
  | .raised => some .raise
  | _ => none

/-- The work function of target `t` executes the command `cmd t`: it ends when do_execute ends, and in the same way. -/
def Executes (cap : Nat) (cmd : Nat → Child) (tr : List Ev) : Prop :=
  ∀ w t r, Ev.finish w t r ∈ tr → ∃ k u, Steps cap (cmd t) k (Proc.start (cmd t)) u ∧ u.phase.ret = some r

/-- the output of a command fits into the pipes and is valid UTF-8 -/
def Harmless (cap : Nat) (p : Child) : Prop := ∀ c, (p.text c).length ≤ cap ∧ ∃ o, Encodes (p.text c) o

theorem over_of_ret {f : Phase} {r : Ret} (h : f.ret = some r) : f.over = true := by
  cases f with
  | returned a b => rfl
  | raised => rfl
  | _ => cases h

theorem completes {cap : Nat} {p : Child} (hc : ∀ c, (p.text c).length ≤ cap) :
    ∃ k u, Steps cap p k (Proc.start p) u ∧ u.phase.over = true := by
  have key : ∀ m k s, s.left = m → Steps cap p k (Proc.start p) s →
      ∃ k u, Steps cap p k (Proc.start p) u ∧ u.phase.over = true := by
    intro m
    induction m using Nat.strong_induction_on with
    | _ m ih =>
      intro k s hm h
      by_cases hmax : ∃ t, Step cap p s t
      · obtain ⟨t, ht⟩ := hmax
        have := ht.left
        exact ih t.left (by omega) (k + 1) t rfl (h.succ ht)
      · exact ⟨k, s, h, progress hc h (fun t ht => hmax ⟨t, ht⟩)⟩
  exact key _ 0 _ rfl (Steps.zero _)

theorem Harmless.ret {cap k : Nat} {p : Child} {u : St} (hp : Harmless cap p) (h : Steps cap p k (Proc.start p) u)
    (hov : u.phase.over = true) : u.phase.ret = some (if p.status = 0 then .ok else .fail) := by
  rcases (Inv.of_steps h).fin hov with ⟨o, e, _, _, hE⟩ | ⟨_, hd⟩
  · rw [hE]
    by_cases h0 : p.status = 0
    · rw [h0]; rfl
    · rw [show (p.status == 0) = false from by simpa using h0, if_neg h0]; rfl
  · rcases hd with hd | hd
    · obtain ⟨o, h1⟩ := (hp .out).2; exact absurd h1 (decode_none.1 hd o)
    · obtain ⟨o, h1⟩ := (hp .err).2; exact absurd h1 (decode_none.1 hd o)

/-- C102 is violated: no build that starts a command which writes more bytes than a pipe holds, or bytes that are not valid
UTF-8, ever returns. -/
theorem C102_violated (cap : Nat) (cmd : Nat → Child) (ho : IsOrder order) (h : construct order lim ts = .ok g)
    (hx : Exec g n tr s) (hcmd : Executes cap cmd tr)
    (w t : Nat) (hs : Ev.start w t ∈ tr) (hbad : ¬ Harmless cap (cmd t)) : ¬ s.returned := by
  obtain ⟨_, _, _, _, dep, hwf, _⟩ := accepted ho h
  have I := inv_of_exec hwf hx
  intro hret
  have hu := I.unf
  rw [show s.unfinished = 0 from hret] at hu
  have hb : s.ws.countP WS.busy = 0 := by omega
  rw [List.countP_eq_zero] at hb
  rcases I.startedWhere t (mem_starts.2 ⟨w, hs⟩) with he | ⟨w', hw'⟩
  · obtain ⟨w', r, hf⟩ := mem_ends.1 he
    obtain ⟨k, u, hk, hr⟩ := hcmd w' t r hf
    have hov := over_of_ret hr
    have hnr : r ≠ .raise := fun h' => C08_violated ho h hx w' t (h' ▸ hf) hret
    apply hbad
    intro c
    constructor
    · by_contra hbig
      have := (C86_violated cap (cmd t) c (by omega) k u hk).1
      rw [this] at hov
      cases hov
    · rcases (Inv.of_steps hk).fin hov with ⟨o, e, h1, h2, _⟩ | ⟨hrd, _⟩
      · cases c
        · exact ⟨o, h1⟩
        · exact ⟨e, h2⟩
      · rw [hrd] at hr
        simp only [Phase.ret, Option.some.injEq] at hr
        exact absurd hr.symm hnr
  · have := hb _ (List.mem_of_getElem? hw')
    simp [WS.busy] at this

/-- C102, what holds instead: if the output of every command fits into the pipes and is valid UTF-8, a build with at least
one thread goes on until it returns, and it returns True exactly if all commands end with status 0. -/
theorem C102_partial (cap : Nat) (cmd : Nat → Child) (hcmds : ∀ t, Harmless cap (cmd t)) (hn : 0 < n)
    (ho : IsOrder order) (h : construct order lim ts = .ok g) (hx : Exec g n tr s) (hcmd : Executes cap cmd tr) :
    (¬ s.returned → ∃ e s', step g s e = some s' ∧ Executes cap cmd (tr ++ [e])) ∧ tr.length ≤ 2 * ts.length ∧
    (s.returned → (s.verdict = true ↔ ∀ t < ts.length, (cmd t).status = 0)) := by
  have hfol : Follows (fun t => if (cmd t).status = 0 then .ok else .fail) tr := by
    intro w t r hf
    obtain ⟨k, u, hk, hr⟩ := hcmd w t r hf
    rw [(hcmds t).ret hk (over_of_ret hr)] at hr
    exact (Option.some.inj hr).symm
  obtain ⟨hlen, hgo⟩ := C07_terminates ho h hn hx
  refine ⟨fun hnr => ?_, hlen, fun hret => ?_⟩
  · have hno : ∀ w t, Ev.finish w t .raise ∉ tr := by
      intro w t hf
      have := hfol w t _ hf
      by_cases h0 : (cmd t).status = 0 <;> simp [h0] at this
    rcases hgo hno hnr with ⟨w, t, s', hs'⟩ | ⟨w, t, _, _, hr⟩
    · refine ⟨_, s', hs', ?_⟩
      intro w' t' r' hf
      rcases List.mem_append.1 hf with hf | hf
      · exact hcmd w' t' r' hf
      · simp at hf
    · obtain ⟨k, u, hk, hov⟩ := completes (p := cmd t) (fun c => (hcmds t c).1)
      have hret := (hcmds t).ret hk hov
      obtain ⟨s', hs'⟩ := hr (if (cmd t).status = 0 then .ok else .fail)
      refine ⟨_, s', hs', ?_⟩
      intro w' t' r' hf
      rcases List.mem_append.1 hf with hf | hf
      · exact hcmd w' t' r' hf
      · simp only [List.mem_singleton, Ev.finish.injEq] at hf
        obtain ⟨rfl, rfl, rfl⟩ := hf
        exact ⟨k, u, hk, hret⟩
  · rw [C06_verdict ho h _ hx hfol hret]
    refine forall_congr' fun t => forall_congr' fun _ => ?_
    by_cases h0 : (cmd t).status = 0 <;> simp [h0]

/-- a build of the diamond, in which the second target runs a command with too much output: the execution goes on until
only this command is left, then it is stuck -/
def noisyCmd : Nat → Child := fun t => if t = 2 then noisy 65537 else ⟨[], 0⟩

theorem quiet_run (cap : Nat) : ∃ k u, Steps cap ⟨[], 0⟩ k (Proc.start ⟨[], 0⟩) u ∧ u.phase.ret = some .ok := by
  have hh : Harmless cap ⟨[], 0⟩ := by
    intro c
    cases c <;> exact ⟨by simp [Child.text], "", by simp only [Child.text]; exact decode_some.1 (by decide +kernel)⟩
  obtain ⟨k, u, h1, h2⟩ := completes (cap := cap) (p := ⟨[], 0⟩) (fun c => (hh c).1)
  exact ⟨k, u, h1, by rw [hh.ret h1 h2]; rfl⟩

example : ∃ tr s, Exec diamondG 2 tr s ∧ Executes 65536 noisyCmd tr ∧ Ev.start 0 2 ∈ tr ∧
    ¬ Harmless 65536 (noisyCmd 2) := by
  refine ⟨[.start 0 0, .finish 0 0 .ok, .start 1 1, .start 0 2, .finish 1 1 .ok], _,
    .snoc (.snoc (.snoc (.snoc (.snoc .init rfl) rfl) rfl) rfl) rfl, ?_, by decide, ?_⟩
  · intro w t r hf
    have hc : noisyCmd t = ⟨[], 0⟩ ∧ r = .ok := by
      simp at hf
      rcases hf with ⟨_, rfl, rfl⟩ | ⟨_, rfl, rfl⟩ <;> exact ⟨rfl, rfl⟩
    rw [hc.1, hc.2]
    exact quiet_run _
  · intro hh
    have := (hh .out).1
    rw [show noisyCmd 2 = noisy 65537 from rfl, noisy_text, List.length_replicate] at this
    omega

/-- and one in which all commands are silent and succeed -/
example : ∃ s, Exec diamondG 2 diamondOk s ∧ Executes 65536 (fun _ => ⟨[], 0⟩) diamondOk ∧ s.returned := by
  obtain ⟨s, h1, h2, _⟩ := diamondOk_exec
  refine ⟨s, h1, ?_, h2⟩
  intro w t r hf
  have : r = .ok := by
    simp [diamondOk] at hf
    tauto
  rw [this]
  exact quiet_run _

end Build

end Licant.Make.Proc
