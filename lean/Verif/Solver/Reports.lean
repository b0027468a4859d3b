/-
What a failed build says: solver.py:134-138.  C150.
-/
import Verif.Solver.Props

set_option autoImplicit false

namespace Licant.Solver
open Licant.Py Relation

variable {order : Nat → List Nat → List Nat} {lim n : Nat} {ts : List DTarget} {g : Graph}
  {tr : List Ev} {s : St} {out : List String}

/-! ### model -/

/-- solver.py:126-138: the targets named by lines `LicantError: Error while executing task …` that are
printed in one segment: only when a work function has returned `False`, unless an exception (the
assertion of line 49) or the error flag (129-130) leads away before. -/
def said (ts : List DTarget) (g : Graph) (s : St) : Ev → List String
  | .finish _ t .fail =>
    match decreaseAll { s with done := fun i => if i = t then true else s.done i } (g.inv t) with
    | (_, false) => []
    | (s, true) => if s.error then [] else ((ts[t]?).map DTarget.name).toList
  | _ => []

/-- All executions (`Exec`, Model.lean) with the targets named on the screen, in this order. -/
inductive ExecSaid (ts : List DTarget) (g : Graph) (n : Nat) : List Ev → St → List String → Prop
  | init : ExecSaid ts g n [] (init g n) []
  | snoc {tr s out e s'} : ExecSaid ts g n tr s out → step g s e = some s' →
      ExecSaid ts g n (tr ++ [e]) s' (out ++ said ts g s e)

/-! ### proofs -/

theorem ExecSaid.exec (h : ExecSaid ts g n tr s out) : Exec g n tr s := by
  induction h with
  | init => exact .init
  | snoc _ hst ih => exact .snoc ih hst

/-- every execution says something, possibly nothing -/
theorem Exec.said (h : Exec g n tr s) : ∃ out, ExecSaid ts g n tr s out := by
  induction h with
  | init => exact ⟨_, .init⟩
  | snoc _ hst ih => obtain ⟨out, ih⟩ := ih; exact ⟨_, .snoc ih hst⟩

theorem decreaseAll_error (ds : List Nat) : ∀ s : St, (decreaseAll s ds).1.error = s.error := by
  induction ds with
  | nil => intro s; rfl
  | cons d ds ih =>
    intro s
    unfold decreaseAll
    simp only
    split
    · split <;> rfl
    · rw [ih]; split <;> rfl

/-- C150: `exec()` names exactly one target if a work function has returned `False`, and it is the one that did so
first; it names none if none has.  So it names a target if and only if the result is `False`. -/
theorem C150_named (ho : IsOrder order) (h : construct order lim ts = .ok g) (hx : ExecSaid ts g n tr s out) :
    ((∀ w t, Ev.finish w t .fail ∉ tr) ∧ out = [] ∧ s.verdict = true) ∨
    ∃ pre post w t T, tr = pre ++ .finish w t .fail :: post ∧ (∀ w' t', Ev.finish w' t' .fail ∉ pre) ∧
      ts[t]? = some T ∧ out = [T.name] ∧ s.verdict = false := by
  obtain ⟨_, _, _, hsz, dep, hwf, _⟩ := accepted ho h
  induction hx with
  | init => exact Or.inl ⟨by simp, rfl, rfl⟩
  | @snoc tr s out e s' hx hst ih =>
    have I := inv_of_exec hwf hx.exec
    have I' := inv_of_exec hwf (Exec.snoc hx.exec hst)
    by_cases hfail : ∃ w t, Ev.finish w t .fail ∈ tr
    · -- nothing more is said
      have herr : s.error = true := I.errIff.2 hfail
      have herr' : s'.error = true := I'.errIff.2 (by obtain ⟨w, t, hm⟩ := hfail; exact ⟨w, t, by simp [hm]⟩)
      have hs : said ts g s e = [] := by
        unfold said
        split
        · rename_i t
          have hd := decreaseAll_error (g.inv t) { s with done := fun i => if i = t then true else s.done i }
          split
          · rfl
          · rename_i s1 h1
            rw [h1] at hd
            simp only at hd
            rw [hd, herr]; rfl
        · rfl
      rcases ih with ⟨hno, _, _⟩ | ⟨pre, post, w, t, T, rfl, h2, h3, h4, _⟩
      · obtain ⟨w, t, hm⟩ := hfail
        exact absurd hm (hno w t)
      · refine Or.inr ⟨pre, post ++ [e], w, t, T, by simp, h2, h3, ?_, by simp [St.verdict, herr']⟩
        rw [hs, h4]; rfl
    · rcases ih with ⟨hno, rfl, _⟩ | ⟨pre, post, w, t, _, rfl, _⟩
      swap
      · exact absurd ⟨w, t, by simp⟩ hfail
      have herr : s.error = false := by
        cases hb : s.error with
        | false => rfl
        | true => exact absurd (I.errIff.1 hb) hfail
      by_cases he : ∃ w t, e = .finish w t .fail
      · obtain ⟨w, t, rfl⟩ := he
        have herr' : s'.error = true := I'.errIff.2 ⟨w, t, by simp⟩
        have hlt : t < ts.length := by
          rw [← hsz]
          exact I'.startedLt t (I'.endsStarted t (by simp [ends]))
        obtain ⟨T, hT⟩ : ∃ T, ts[t]? = some T := ⟨ts[t], List.getElem?_eq_getElem hlt⟩
        refine Or.inr ⟨tr, [], w, t, T, rfl, hno, hT, ?_, by simp [St.verdict, herr']⟩
        have hd := decreaseAll_error (g.inv t) { s with done := fun i => if i = t then true else s.done i }
        simp only [step] at hst
        split at hst
        · simp only [said, List.nil_append]
          generalize decreaseAll { s with done := fun i => if i = t then true else s.done i } (g.inv t) = r at hst hd ⊢
          obtain ⟨s1, b⟩ := r
          simp only at hd
          cases b with
          | false =>
            cases hst
            simp only at herr'
            rw [hd, herr] at herr'; cases herr'
          | true => simp [hd, herr, hT]
        · cases hst
      · left
        have hs : said ts g s e = [] := by
          unfold said
          split
          · rename_i w t; exact absurd ⟨w, t, rfl⟩ he
          · rfl
        have hno' : ∀ w t, Ev.finish w t .fail ∉ tr ++ [e] := by
          intro w t hm
          rcases List.mem_append.1 hm with hm | hm
          · exact hno w t hm
          · exact he ⟨w, t, (List.mem_singleton.1 hm).symm⟩
        refine ⟨hno', by rw [hs]; rfl, ?_⟩
        have : s'.error = false := by
          cases hb : s'.error with
          | false => rfl
          | true => obtain ⟨w, t, hm⟩ := I'.errIff.1 hb; exact absurd hm (hno' w t)
        simp [St.verdict, this]

/-- Non-vacuity of C150: `c` fails while `b` is still running. -/
example : ∃ s, ExecSaid diamond diamondG 2 diamondFail s ["c"] ∧ s.returned := by
  obtain ⟨s, hx, hr, hv⟩ := diamondFail_exec
  obtain ⟨out, h⟩ := hx.said (ts := diamond)
  refine ⟨s, ?_, hr⟩
  rcases C150_named idOrder_isOrder diamond_accepted h with ⟨_, _, h3⟩ | ⟨pre, post, w, t, T, h1, h2, h3, rfl, _⟩
  · rw [hv] at h3; cases h3
  · have : Ev.finish w t .fail ∈ diamondFail := by rw [h1]; simp
    simp only [diamondFail, List.mem_cons, Ev.finish.injEq, List.not_mem_nil, reduceCtorEq, or_false, false_or,
      and_false, and_true] at this
    obtain ⟨rfl, rfl⟩ := this
    cases h3
    exact h

end Licant.Solver
