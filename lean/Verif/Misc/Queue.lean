/-
Model of `licant.util.queue` and C61: it is a first-in first-out queue.
-/
import Mathlib.Data.List.Basic

set_option autoImplicit false

namespace Licant.Misc

variable {α : Type}

/-! ### model -/

/-- util.py:130-136 `queue`: the attributes `lst` and `rdr` -/
structure Queue (α : Type) where
  lst : List α
  rdr : Nat

namespace Queue

/-- util.py:134-136 `__init__` -/
def new : Queue α := ⟨[], 0⟩

/-- util.py:138-139 `put` -/
def put (q : Queue α) (x : α) : Queue α := { q with lst := q.lst ++ [x] }

/-- util.py:141-151 `get`.  `none` is the exception: raised for an empty list (142-143), and an `IndexError` if the index
were out of range (145). -/
def get (q : Queue α) : Option (α × Queue α) :=
  if q.lst.length = 0 then none
  else match q.lst[q.rdr]? with
    | none => none
    | some ret =>
      let rdr := q.rdr + 1
      if rdr ≥ q.lst.length then some (ret, new) else some (ret, { q with rdr := rdr })

/-- util.py:153-154 `empty` -/
def empty (q : Queue α) : Bool := q.lst.length = 0

end Queue

/-! ### specification -/

/-- operations on a queue -/
inductive QOp (α : Type) where
  | put (x : α)
  | get
  | empty

/-- what an operation returns -/
inductive QRes (α : Type) where
  | unit
  | value (x : α)
  | raises
  | bool (b : Bool)

/-- a first-in first-out queue: the list of its elements, the oldest first; `get` of an empty queue raises and changes
nothing -/
def fifoStep (l : List α) : QOp α → List α × QRes α
  | .put x => (l ++ [x], .unit)
  | .get => match l with
    | [] => ([], .raises)
    | x :: l => (l, .value x)
  | .empty => (l, .bool l.isEmpty)

/-- the results of a sequence of operations on a fifo queue with the elements `l` -/
def fifoRun : List α → List (QOp α) → List (QRes α)
  | _, [] => []
  | l, o :: os => (fifoStep l o).2 :: fifoRun (fifoStep l o).1 os

/-- an operation on `util.queue`; the queue is unchanged by an exception -/
def queueStep (q : Queue α) : QOp α → Queue α × QRes α
  | .put x => (q.put x, .unit)
  | .get => match q.get with
    | none => (q, .raises)
    | some (x, q) => (q, .value x)
  | .empty => (q, .bool q.empty)

/-- the results of a sequence of operations on `util.queue` -/
def queueRun : Queue α → List (QOp α) → List (QRes α)
  | _, [] => []
  | q, o :: os => (queueStep q o).2 :: queueRun (queueStep q o).1 os

/-! ### proof -/

/-- the elements still in the queue are those from `rdr` on; a non-empty list has such elements -/
def Holds (q : Queue α) (l : List α) : Prop := l = q.lst.drop q.rdr ∧ (q.rdr < q.lst.length ∨ q.lst = [] ∧ q.rdr = 0)

theorem step_holds {q : Queue α} {l : List α} (h : Holds q l) (o : QOp α) :
    Holds (queueStep q o).1 (fifoStep l o).1 ∧ (queueStep q o).2 = (fifoStep l o).2 := by
  obtain ⟨rfl, h⟩ := h
  cases o with
  | put x =>
    refine ⟨⟨?_, ?_⟩, rfl⟩
    · simp only [queueStep, fifoStep, Queue.put]
      rcases h with h | ⟨h1, h2⟩
      · rw [List.drop_append_of_le_length (by omega)]
      · rw [h1, h2]; rfl
    · left
      simp only [queueStep, Queue.put, List.length_append, List.length_cons, List.length_nil]
      rcases h with h | ⟨h1, h2⟩
      · omega
      · rw [h2]; omega
  | get =>
    rcases h with h | ⟨h1, h2⟩
    · have hne : q.lst.length ≠ 0 := by omega
      have hdrop : q.lst.drop q.rdr = q.lst[q.rdr] :: q.lst.drop (q.rdr + 1) := List.drop_eq_getElem_cons h
      simp only [queueStep, fifoStep, Queue.get, if_neg hne, List.getElem?_eq_getElem h, hdrop]
      by_cases hr : q.rdr + 1 ≥ q.lst.length
      · simp only [if_pos hr]
        refine ⟨⟨?_, Or.inr ⟨rfl, rfl⟩⟩, trivial⟩
        rw [List.drop_eq_nil_of_le (by omega)]; rfl
      · simp only [if_neg hr]
        exact ⟨⟨rfl, Or.inl (by show q.rdr + 1 < q.lst.length; omega)⟩, trivial⟩
    · have hd : q.lst.drop q.rdr = [] := by rw [h1]; simp
      simp only [queueStep, fifoStep, Queue.get, h1, h2, List.length_nil, if_true, List.drop_nil]
      exact ⟨⟨by rw [h1]; simp, Or.inr ⟨h1, h2⟩⟩, trivial⟩
  | empty =>
    refine ⟨⟨rfl, h⟩, ?_⟩
    simp only [queueStep, fifoStep, Queue.empty]
    rcases h with h | ⟨h1, h2⟩
    · have hdrop : q.lst.drop q.rdr = q.lst[q.rdr] :: q.lst.drop (q.rdr + 1) := List.drop_eq_getElem_cons h
      have hne : q.lst.length ≠ 0 := by omega
      rw [hdrop, List.isEmpty_cons, decide_eq_false hne]
    · simp [h1]

/-- C61: every sequence of operations on a new `util.queue` gives the results of a first-in first-out queue. -/
theorem C61_fifo (ops : List (QOp α)) : queueRun (Queue.new : Queue α) ops = fifoRun [] ops := by
  suffices h : ∀ (q : Queue α) (l : List α), Holds q l → queueRun q ops = fifoRun l ops from
    h _ _ ⟨rfl, Or.inr ⟨rfl, rfl⟩⟩
  induction ops with
  | nil => intro q l _; rfl
  | cons o os ih =>
    intro q l h
    obtain ⟨h1, h2⟩ := step_holds h o
    simp only [queueRun, fifoRun, h2, ih _ _ h1]

/-- a sequence in which the queue is emptied, refilled and read again, and `get` fails once -/
example : queueRun (Queue.new : Queue Nat) [.put 1, .put 2, .get, .put 3, .get, .get, .get, .put 4, .empty, .get, .empty] =
    [.unit, .unit, .value 1, .unit, .value 2, .value 3, .raises, .unit, .bool false, .value 4, .bool true] := rfl

end Licant.Misc
