/-
How often `collect_modules` of licant/cxx_modules.py goes through the dependencies of a module (C145).
-/
import Verif.Modules.Term

set_option autoImplicit false

namespace Licant.Modules
open Licant.Py Relation

/-! ### model -/

/-- The state of `collect_modules` with the calls of the inner function so far: each of them goes through the `mdepends` of one
module, and with `trace` prints a line `trace: collect_modules( … )` (licant/cxx_modules.py:377-379). -/
structure WState where
  st : CState
  walked : List Nat

/-- licant/cxx_modules.py:381-407, one round of the loop -/
def entryW (rec : WState → Nat → Except Err WState) (t : WState) (md : Val) : Except Err WState := do
  match ← mdep md with
  | .plain n =>
    if t.st.mdepends.has n then pure t
    else pure { t with st := { t.st with queue := t.st.queue ++ [n] } }
  | .exact n i =>
    let (L, o) ← t.st.lib.get n i
    let s := { t.st with lib := L }
    if s.mdepends.has n && s.mdepends.get n ≠ some o then throw .exit
    else
      let t := { t with st := s.specify n o }
      if (t.st.lib.obj o).opts.has "mdepends" then rec t o else pure t

/-- licant/cxx_modules.py:377-407 -/
def collectInW : Nat → WState → Nat → Except Err WState
  | 0, _, _ => .error .recursion
  | fuel + 1, t, o =>
    match (t.st.lib.obj o).opts.get "mdepends" with
    | none => .error .raised
    | some v => do
      let l ← v.iter
      l.foldlM (entryW (collectInW fuel)) { t with walked := t.walked ++ [o] }

/-- licant/cxx_modules.py:409-410, 420-421 -/
def collectIfW (fuel : Nat) (t : WState) (o : Nat) : Except Err WState :=
  if (t.st.lib.obj o).opts.has "mdepends" then collectInW fuel t o else .ok t

/-- licant/cxx_modules.py:412-421 -/
def collectLoopW (fuel : Nat) : Nat → WState → Except Err WState
  | steps, t =>
    match t.st.queue with
    | [] => .ok t
    | n :: q =>
      match steps with
      | 0 => .error .diverge
      | steps + 1 => do
        let t := { t with st := { t.st with queue := q } }
        if t.st.mdepends.has n then collectLoopW fuel steps t
        else
          let (L, o) ← t.st.lib.getDefault n
          let t := { t with st := ({ t.st with lib := L } : CState).specify n o }
          let t ← collectIfW fuel t o
          collectLoopW fuel steps t

/-- licant/cxx_modules.py:346-429: the library afterwards, the list of modules, and the modules whose dependencies were gone
through, one for every time -/
def collectW (fuel steps : Nat) (L : Lib) (key : Nat → Nat) (root : Nat) : Except Err (Lib × List Nat × List Nat) := do
  let t ← collectIfW fuel ⟨⟨L, [], [], key, 0⟩, []⟩ root
  let t ← collectLoopW fuel steps t
  pure (t.st.lib, (t.st.mdepends.map (·.2)).mergeSort (fun a b => t.st.key a ≤ t.st.key b), t.walked)

/-! ### it collects the same -/

/-- the state without the record -/
def bare : Except Err WState → Except Err CState
  | .ok t => .ok t.st
  | .error e => .error e

theorem bare_entry {rec : WState → Nat → Except Err WState} {rec' : CState → Nat → Except Err CState}
    (h : ∀ t o, bare (rec t o) = rec' t.st o) (t : WState) (md : Val) :
    bare (entryW rec t md) = entry rec' t.st md := by
  unfold entryW entry
  cases hm : mdep md with
  | error e => rfl
  | ok d =>
    cases d with
    | plain n =>
      simp only [bind, Except.bind, pure, Except.pure]
      split <;> rfl
    | exact n i =>
      simp only [bind, Except.bind, pure, Except.pure, throw, throwThe, MonadExceptOf.throw]
      cases hg : t.st.lib.get n i with
      | error e => rfl
      | ok r =>
        obtain ⟨L, o⟩ := r
        dsimp only
        split
        · rfl
        · by_cases hh : (L.obj o).opts.has "mdepends" = true
          · have e2 : ((({ t.st with lib := L } : CState).specify n o).lib.obj o).opts.has "mdepends" = true := hh
            rw [if_pos e2, if_pos e2, h]
          · have e2 : ¬ ((({ t.st with lib := L } : CState).specify n o).lib.obj o).opts.has "mdepends" = true := hh
            rw [if_neg e2, if_neg e2]
            rfl

theorem bare_foldl {rec : WState → Nat → Except Err WState} {rec' : CState → Nat → Except Err CState}
    (h : ∀ t o, bare (rec t o) = rec' t.st o) : ∀ (l : List Val) (t : WState),
    bare (l.foldlM (entryW rec) t) = l.foldlM (entry rec') t.st := by
  intro l
  induction l with
  | nil => intro t; rfl
  | cons e l ih =>
    intro t
    simp only [List.foldlM_cons, bind, Except.bind]
    have := bare_entry h t e
    cases he : entryW rec t e with
    | error x => rw [he] at this; rw [← this]; rfl
    | ok t' => rw [he] at this; rw [← this]; exact ih t'

theorem bare_collectIn : ∀ (fuel : Nat) (t : WState) (o : Nat), bare (collectInW fuel t o) = collectIn fuel t.st o := by
  intro fuel
  induction fuel with
  | zero => intro t o; rfl
  | succ fuel ih =>
    intro t o
    unfold collectInW collectIn
    cases hv : (t.st.lib.obj o).opts.get "mdepends" with
    | none => rfl
    | some v =>
      simp only [bind, Except.bind]
      cases v.iter with
      | error e => rfl
      | ok l => exact bare_foldl ih l _

theorem bare_collectIf (fuel : Nat) (t : WState) (o : Nat) : bare (collectIfW fuel t o) = collectIf fuel t.st o := by
  unfold collectIfW collectIf
  split
  · exact bare_collectIn fuel t o
  · rfl

theorem bare_loop (fuel : Nat) : ∀ (steps : Nat) (t : WState),
    bare (collectLoopW fuel steps t) = collectLoop fuel steps t.st := by
  intro steps
  induction steps with
  | zero =>
    intro t
    unfold collectLoopW collectLoop
    cases t.st.queue <;> rfl
  | succ steps ih =>
    intro t
    unfold collectLoopW collectLoop
    cases hq : t.st.queue with
    | nil => rfl
    | cons n q =>
      simp only [bind, Except.bind]
      split
      · exact ih _
      · cases hg : t.st.lib.getDefault n with
        | error e => rfl
        | ok x =>
          obtain ⟨L, o⟩ := x
          dsimp only
          have := bare_collectIf fuel { t with st := ({ t.st with lib := L, queue := q } : CState).specify n o } o
          cases hc : collectIfW fuel { t with st := ({ t.st with lib := L, queue := q } : CState).specify n o } o with
          | error e => rw [hc] at this; erw [← this]; rfl
          | ok t' => rw [hc] at this; erw [← this]; exact ih t'

/-- `collectW` collects what `collect` collects -/
theorem collectW_eq (fuel steps : Nat) (L : Lib) (key : Nat → Nat) (root : Nat) :
    collect fuel steps L key root = match collectW fuel steps L key root with
      | .ok (L', res, _) => .ok (L', res)
      | .error e => .error e := by
  unfold collect collectW
  simp only [bind, Except.bind, pure, Except.pure]
  have h1 := bare_collectIf fuel ⟨⟨L, [], [], key, 0⟩, []⟩ root
  cases hc : collectIfW fuel ⟨⟨L, [], [], key, 0⟩, []⟩ root with
  | error e => rw [hc] at h1; rw [← h1]; rfl
  | ok t =>
    rw [hc] at h1
    rw [← h1]
    dsimp only [bare]
    have h2 := bare_loop fuel steps t
    cases hl : collectLoopW fuel steps t with
    | error e => rw [hl] at h2; rw [← h2]; rfl
    | ok t' => rw [hl] at h2; rw [← h2]; rfl

/-! ### specification -/

/-- the entry `e` of `mdepends` explicitly requests the module object `b` -/
def AsksFor (L : Lib) (e : Val) (b : Nat) : Prop := ∃ n i, mdep e = .ok (.exact n i) ∧ Gives L n i b

/-- Every module is requested explicitly in at most one place, those that are so requested are not also requested by name, and
nobody requests the module that the collection starts from. -/
structure AskedOnce (L : Lib) (root : Nat) : Prop where
  requester : ∀ a a' b, Explicit L a b → Explicit L a' b → a = a'
  entry : ∀ a v l, (L.obj a).opts.get "mdepends" = some v → v.iter = .ok l →
    l.Pairwise fun e e' => ∀ b, AsksFor L e b → ¬ AsksFor L e' b
  named : ∀ a n b, Requests (L.obj a) (.plain n) → Gives L n none b → b ≠ root ∧ ∀ c, ¬ Explicit L c b
  start : ∀ c, ¬ Explicit L c root

/-! ### forests -/

section
variable {E : Nat → Nat → Prop} (hu : ∀ a a' b, E a b → E a' b → a = a')
include hu

theorem forest_roots {r r' x : Nat} (hr : ∀ c, ¬ E c r) (hr' : ∀ c, ¬ E c r') (h : ReflTransGen E r x)
    (h' : ReflTransGen E r' x) : r = r' := by
  induction h with
  | refl =>
    rcases ReflTransGen.cases_tail h' with h1 | ⟨c, _, h1⟩
    · exact h1
    · exact absurd h1 (hr c)
  | tail _ hbc ih =>
    rcases ReflTransGen.cases_tail h' with h1 | ⟨c, h2, h1⟩
    · subst h1; exact absurd hbc (hr' _)
    · rw [hu _ _ _ h1 hbc] at h2; exact ih h2

theorem forest_acyclic {r x : Nat} (hr : ∀ c, ¬ E c r) (h : ReflTransGen E r x) : ¬ TransGen E x x := by
  induction h with
  | refl =>
    intro h
    obtain ⟨c, _, h1⟩ := TransGen.tail'_iff.1 h
    exact hr c h1
  | tail _ hbc ih =>
    intro h
    obtain ⟨c, h2, h1⟩ := TransGen.tail'_iff.1 h
    rw [hu _ _ _ h1 hbc] at h2
    exact ih (TransGen.head' hbc h2)

theorem forest_above {b c x : Nat} (h : ReflTransGen E b x) (h' : ReflTransGen E c x) :
    ReflTransGen E b c ∨ ReflTransGen E c b := by
  induction h with
  | refl => exact Or.inr h'
  | tail hab hbc ih =>
    rcases ReflTransGen.cases_tail h' with h1 | ⟨d, h2, h1⟩
    · subst h1; exact Or.inl (hab.tail hbc)
    · rw [hu _ _ _ h1 hbc] at h2; exact ih h2

theorem forest_siblings {o b c x : Nat} (ho : ¬ TransGen E o o) (hb : E o b) (hc : E o c) (hne : b ≠ c)
    (h : ReflTransGen E b x) (h' : ReflTransGen E c x) : False := by
  have key : ∀ b c, E o b → E o c → b ≠ c → ReflTransGen E b c → False := by
    intro b c hb hc hne h
    rcases ReflTransGen.cases_tail h with h1 | ⟨d, h2, h1⟩
    · exact hne h1.symm
    · rw [hu _ _ _ h1 hc] at h2; exact ho (TransGen.head' hb h2)
  rcases forest_above hu h h' with h1 | h1
  · exact key b c hb hc hne h1
  · exact key c b hc hb (Ne.symm hne) h1

end

/-! ### what holds -/

section
variable {L : Lib} {root : Nat}

/-- between the calls; `extra` is a module that is about to be gone through -/
structure WInv (L : Lib) (root : Nat) (extra : Option Nat) (t : WState) : Prop where
  ext : LExt L t.st.lib
  wf : t.st.lib.Wf
  queue : ∀ n ∈ t.st.queue, ∃ a, Requests (L.obj a) (.plain n)
  name : ∀ n o, t.st.mdepends.get n = some o → o < t.st.lib.next ∧ (t.st.lib.obj o).name = n
  all : ∀ o, t.st.Active root o → (t.st.lib.obj o).opts.has "mdepends" = true → o ∈ t.walked ∨ some o = extra ∨ o = root
  only : ∀ o, o ∈ t.walked → t.st.Active root o ∧ (t.st.lib.obj o).opts.has "mdepends" = true ∧ o < L.next

/-- what a call adds: `P` is where the modules gone through come from -/
structure WStep (L : Lib) (root : Nat) (P : Nat → Prop) (t t' : WState) : Prop where
  inv : WInv L root none t'
  has : ∀ n o, t.st.mdepends.get n = some o → t'.st.mdepends.get n = some o
  walked : ∃ ext, t'.walked = t.walked ++ ext ∧ ext.Nodup ∧ ∀ x ∈ ext, P x

theorem collectInW_ok (hwL : L.Wf) (hA : AskedOnce L root) : ∀ (fuel : Nat) (t t' : WState) (o : Nat),
    WInv L root (some o) t → o < L.next → t.st.Active root o →
    (∀ x, ReflTransGen (Explicit L) o x → ¬ TransGen (Explicit L) x x) →
    collectInW fuel t o = .ok t' → WStep L root (ReflTransGen (Explicit L) o) t t' ∧ o ∈ t'.walked := by
  intro fuel
  induction fuel with
  | zero => intro t t' o _ _ _ _ h; cases h
  | succ fuel ih =>
    intro t t' o hi ho hact hac h
    unfold collectInW at h
    split at h
    · cases h
    rename_i v hv
    simp only [bind, Except.bind] at h
    split at h
    · cases h
    rename_i l hl
    have hmd : (t.st.lib.obj o).opts.has "mdepends" = true := by simp [Dict.has, hv]
    have hobj := hi.ext.obj o ho
    rw [hobj] at hv
    have hreq : ∀ e ∈ l, ∀ d, mdep e = .ok d → Requests (L.obj o) d := fun e he d hd => ⟨v, l, e, hv, hl, he, hd⟩
    have hpw := hA.entry o v l hv hl
    -- the rounds
    have key : ∀ (l : List Val) (t t' : WState), WInv L root none t →
        (∀ e ∈ l, ∀ d, mdep e = .ok d → Requests (L.obj o) d) →
        (l.Pairwise fun e e' => ∀ b, AsksFor L e b → ¬ AsksFor L e' b) →
        l.foldlM (entryW (collectInW fuel)) t = .ok t' →
        WStep L root (fun x => ∃ e ∈ l, ∃ b, AsksFor L e b ∧ Explicit L o b ∧ ReflTransGen (Explicit L) b x) t t' := by
      intro l
      induction l with
      | nil => intro t t' hi _ _ h; cases h; exact ⟨hi, fun _ _ h => h, [], by simp, by simp, by simp⟩
      | cons e l ihl =>
        intro t t' hi hreq hpw h
        simp only [List.foldlM_cons, bind, Except.bind] at h
        split at h
        · cases h
        rename_i t1 h1
        have hone : WStep L root (fun x => ∃ b, AsksFor L e b ∧ Explicit L o b ∧ ReflTransGen (Explicit L) b x) t t1 := by
          unfold entryW at h1
          simp only [bind, Except.bind, pure, Except.pure, throw, throwThe, MonadExceptOf.throw] at h1
          split at h1
          · cases h1
          rename_i d hd
          cases d with
          | plain n =>
            simp only at h1
            split at h1 <;> cases h1
            · exact ⟨hi, fun _ _ h => h, [], by simp, by simp, by simp⟩
            · refine ⟨⟨hi.ext, hi.wf, ?_, hi.name, hi.all, hi.only⟩, fun _ _ h => h, [], by simp, by simp, by simp⟩
              intro m hm
              rcases List.mem_append.1 hm with hm | hm
              · exact hi.queue m hm
              · rw [List.mem_singleton.1 hm]
                exact ⟨o, hreq e (by simp) _ hd⟩
          | exact n i =>
            simp only at h1
            split at h1
            · cases h1
            rename_i r hget
            obtain ⟨L1, b⟩ := r
            obtain ⟨hw1, hx1, hf⟩ := get_ok hi.wf hget
            have hxL := hi.ext.trans hi.wf hx1
            simp only at h1
            split at h1
            · cases h1
            rename_i hsame
            have hsame : t.st.mdepends.get n = none ∨ t.st.mdepends.get n = some b := by
              cases hg : t.st.mdepends.get n with
              | none => exact Or.inl rfl
              | some b' =>
                right
                simp only [Dict.has, hg, Option.isSome_some, Bool.true_and, decide_eq_true_eq, not_not] at hsame
                exact hsame
            have hhas : ∀ m x, t.st.mdepends.get m = some x → (t.st.mdepends.set n b).get m = some x := by
              intro m x hm
              rw [Dict.get_set]
              split
              · rename_i e; subst e
                rcases hsame with hs | hs
                · rw [hs] at hm; cases hm
                · rw [← hm, hs]
              · exact hm
            have hobj1 : ∀ x, x < t.st.lib.next → L1.obj x = t.st.lib.obj x := hx1.obj
            have hinv : ∀ ex, ((L1.obj b).opts.has "mdepends" = true → some b = ex) →
                WInv L root ex { t with st := ({ t.st with lib := L1 } : CState).specify n b } := by
              intro ex hex
              refine ⟨hxL, hw1, hi.queue, ?_, ?_, ?_⟩
              · intro m x hm
                simp only [CState.specify, Dict.get_set] at hm
                split at hm
                · rename_i e; cases hm; subst e; exact hf.name hw1
                · obtain ⟨n1, n2⟩ := hi.name m x hm
                  exact ⟨lt_of_lt_of_le n1 hx1.next, by show (L1.obj x).name = m; rw [hobj1 x n1]; exact n2⟩
              · intro x hx hxm
                rcases hx with hx | ⟨m, hm⟩
                · exact Or.inr (Or.inr hx)
                · simp only [CState.specify, Dict.get_set] at hm
                  split at hm
                  · cases hm; exact Or.inr (Or.inl (hex hxm))
                  · have hlt := (hi.name m x hm).1
                    have hxm' : (L1.obj x).opts.has "mdepends" = true := hxm
                    rw [hobj1 x hlt] at hxm'
                    rcases hi.all x (Or.inr ⟨m, hm⟩) hxm' with h | h | h
                    · exact Or.inl h
                    · cases h
                    · exact Or.inr (Or.inr h)
              · intro x hx
                obtain ⟨h1, h2, h3⟩ := hi.only x hx
                refine ⟨?_, ?_, h3⟩
                · rcases h1 with h1 | ⟨m, hm⟩
                  · exact Or.inl h1
                  · exact Or.inr ⟨m, hhas m x hm⟩
                · show (L1.obj x).opts.has "mdepends" = true
                  rw [hobj1 x (lt_of_lt_of_le h3 hi.ext.next)]; exact h2
            split at h1
            · rename_i hb
              have hf' : Finds L n i b := by
                rcases hf.back hxL with h | h
                · exact h
                · have hb : (L1.obj b).opts.has "mdepends" = true := hb
                  rw [h] at hb; cases hb
              have hask : AsksFor L e b := ⟨n, i, hd, hf'.gives⟩
              have hex : Explicit L o b := ⟨n, i, hreq e (by simp) _ hd, hf'.gives⟩
              obtain ⟨hst, _⟩ := ih _ t1 b (hinv (some b) (fun _ => rfl)) (hf'.name hwL).1
                (Or.inr ⟨n, by simp [CState.specify]⟩)
                (fun x hx => hac x (ReflTransGen.head hex hx)) h1
              refine ⟨hst.inv, fun m x hm => hst.has m x (hhas m x hm), ?_⟩
              obtain ⟨ext, e1, e2, e3⟩ := hst.walked
              exact ⟨ext, e1, e2, fun x hx => ⟨b, hask, hex, e3 x hx⟩⟩
            · rename_i hb
              cases h1
              exact ⟨hinv none (fun h => absurd h hb), hhas, [], by simp, by simp, by simp⟩
        obtain ⟨ext1, e1, n1, p1⟩ := hone.walked
        have hrest := ihl t1 t' hone.inv (fun e he => hreq e (List.mem_cons_of_mem _ he)) (List.pairwise_cons.1 hpw).2 h
        obtain ⟨ext2, e2, n2, p2⟩ := hrest.walked
        refine ⟨hrest.inv, fun m x hm => hrest.has m x (hone.has m x hm), ext1 ++ ext2, by rw [e2, e1]; simp, ?_, ?_⟩
        · rw [List.nodup_append]
          refine ⟨n1, n2, ?_⟩
          rintro x hx y hy rfl
          obtain ⟨b, a1, a2, a3⟩ := p1 x hx
          obtain ⟨e', he', c, c1, c2, c3⟩ := p2 x hy
          have hne : b ≠ c := by
            rintro rfl
            exact (List.pairwise_cons.1 hpw).1 e' he' b a1 c1
          exact forest_siblings hA.requester (hac o .refl) a2 c2 hne a3 c3
        · intro x hx
          rcases List.mem_append.1 hx with hx | hx
          · obtain ⟨b, hb⟩ := p1 x hx
            exact ⟨e, by simp, b, hb⟩
          · obtain ⟨e', he', hb⟩ := p2 x hx
            exact ⟨e', List.mem_cons_of_mem _ he', hb⟩
    have hstart : WInv L root none { t with walked := t.walked ++ [o] } := by
      refine ⟨hi.ext, hi.wf, hi.queue, hi.name, ?_, ?_⟩
      · intro x hx hxm
        rcases hi.all x hx hxm with h | h | h
        · exact Or.inl (List.mem_append_left _ h)
        · cases h; exact Or.inl (by simp)
        · exact Or.inr (Or.inr h)
      · intro x hx
        rcases List.mem_append.1 hx with hx | hx
        · exact hi.only x hx
        · rw [List.mem_singleton.1 hx]
          exact ⟨hact, hmd, ho⟩
    have hst := key l _ t' hstart hreq hpw h
    obtain ⟨ext, e1, n1, p1⟩ := hst.walked
    refine ⟨⟨hst.inv, hst.has, o :: ext, by rw [e1]; simp, ?_, ?_⟩, by rw [e1]; simp⟩
    · rw [List.nodup_cons]
      refine ⟨?_, n1⟩
      intro hx
      obtain ⟨e, _, b, _, hb, hbx⟩ := p1 o hx
      exact hac o .refl (TransGen.head' hb hbx)
    · intro x hx
      rcases List.mem_cons.1 hx with rfl | hx
      · exact .refl
      · obtain ⟨e, _, b, _, hb, hbx⟩ := p1 x hx
        exact .head hb hbx

/-- between the rounds of the loop -/
structure WLoop (L : Lib) (root : Nat) (t : WState) : Prop where
  inv : WInv L root none t
  nodup : t.walked.Nodup
  from_ : ∀ x ∈ t.walked, ∃ r, t.st.Active root r ∧ (∀ c, ¬ Explicit L c r) ∧ ReflTransGen (Explicit L) r x
  start : (L.obj root).opts.has "mdepends" = true → root ∈ t.walked

theorem collectLoopW_ok (hwL : L.Wf) (hA : AskedOnce L root) {fuel : Nat} : ∀ (steps : Nat) (t t' : WState),
    WLoop L root t → collectLoopW fuel steps t = .ok t' → WLoop L root t' ∧ t'.st.queue = [] := by
  intro steps
  induction steps with
  | zero =>
    intro t t' hi h
    unfold collectLoopW at h
    split at h
    · rename_i hq
      cases h; exact ⟨hi, hq⟩
    · cases h
  | succ steps ih =>
    intro t t' hi h
    unfold collectLoopW at h
    split at h
    · rename_i hq
      cases h; exact ⟨hi, hq⟩
    rename_i n q hq
    have hn : ∃ a, Requests (L.obj a) (.plain n) := hi.inv.queue n (by rw [hq]; simp)
    have hq' : ∀ m ∈ q, ∃ a, Requests (L.obj a) (.plain m) := fun m hm => hi.inv.queue m (by rw [hq]; simp [hm])
    simp only [bind, Except.bind] at h
    split at h
    · exact ih { t with st := { t.st with queue := q } } t' ⟨⟨hi.inv.ext, hi.inv.wf, hq', hi.inv.name, hi.inv.all, hi.inv.only⟩, hi.nodup, hi.from_, hi.start⟩ h
    rename_i hnew
    have hnone : t.st.mdepends.get n = none := by
      cases hg : t.st.mdepends.get n with
      | none => rfl
      | some x => simp [Dict.has, hg] at hnew
    split at h
    · cases h
    rename_i r hget
    obtain ⟨L1, b⟩ := r
    have hget' : t.st.lib.get n none = .ok (L1, b) := by rw [get_none]; exact hget
    obtain ⟨hw1, hx1, hf⟩ := get_ok hi.inv.wf hget'
    have hxL := hi.inv.ext.trans hi.inv.wf hx1
    have hhas : ∀ m x, t.st.mdepends.get m = some x → (t.st.mdepends.set n b).get m = some x := by
      intro m x hm
      rw [Dict.get_set]
      split
      · rename_i e; subst e; rw [hnone] at hm; cases hm
      · exact hm
    have hobj1 : ∀ x, x < t.st.lib.next → L1.obj x = t.st.lib.obj x := hx1.obj
    have hinv : ∀ ex, ((L1.obj b).opts.has "mdepends" = true → some b = ex) →
        WInv L root ex { t with st := ({ t.st with lib := L1, queue := q } : CState).specify n b } := by
      intro ex hex
      refine ⟨hxL, hw1, hq', ?_, ?_, ?_⟩
      · intro m x hm
        simp only [CState.specify, Dict.get_set] at hm
        split at hm
        · rename_i e; cases hm; subst e; exact hf.name hw1
        · obtain ⟨n1, n2⟩ := hi.inv.name m x hm
          exact ⟨lt_of_lt_of_le n1 hx1.next, by show (L1.obj x).name = m; rw [hobj1 x n1]; exact n2⟩
      · intro x hx hxm
        rcases hx with hx | ⟨m, hm⟩
        · exact Or.inr (Or.inr hx)
        · simp only [CState.specify, Dict.get_set] at hm
          split at hm
          · cases hm; exact Or.inr (Or.inl (hex hxm))
          · have hlt := (hi.inv.name m x hm).1
            have hxm' : (L1.obj x).opts.has "mdepends" = true := hxm
            rw [hobj1 x hlt] at hxm'
            rcases hi.inv.all x (Or.inr ⟨m, hm⟩) hxm' with h | h | h
            · exact Or.inl h
            · cases h
            · exact Or.inr (Or.inr h)
      · intro x hx
        obtain ⟨h1, h2, h3⟩ := hi.inv.only x hx
        refine ⟨?_, ?_, h3⟩
        · rcases h1 with h1 | ⟨m, hm⟩
          · exact Or.inl h1
          · exact Or.inr ⟨m, hhas m x hm⟩
        · show (L1.obj x).opts.has "mdepends" = true
          rw [hobj1 x (lt_of_lt_of_le h3 hi.inv.ext.next)]; exact h2
    have hactive : ∀ r, t.st.Active root r → (({ t.st with lib := L1, queue := q } : CState).specify n b).Active root r := by
      rintro r (h1 | ⟨m, hm⟩)
      · exact Or.inl h1
      · exact Or.inr ⟨m, hhas m r hm⟩
    simp only at h
    split at h
    · cases h
    rename_i t1 h1
    refine ih t1 t' ?_ h
    unfold collectIfW at h1
    split at h1
    · rename_i hb
      have hb : (L1.obj b).opts.has "mdepends" = true := hb
      have hf' : Finds L n none b := by
        rcases hf.back hxL with h | h
        · exact h
        · rw [h] at hb; cases hb
      obtain ⟨a, ha⟩ := hn
      obtain ⟨hbr, hbp⟩ := hA.named a n b ha hf'.gives
      obtain ⟨hst, _⟩ := collectInW_ok hwL hA fuel _ t1 b (hinv (some b) (fun _ => rfl)) (hf'.name hwL).1
        (Or.inr ⟨n, by simp [CState.specify]⟩) (fun x hx => forest_acyclic hA.requester hbp hx) h1
      obtain ⟨ext, e1, n1, p1⟩ := hst.walked
      simp only at e1
      have hact' : ∀ r, (({ t.st with lib := L1, queue := q } : CState).specify n b).Active root r → t1.st.Active root r := by
        rintro r (h1 | ⟨m, hm⟩)
        · exact Or.inl h1
        · exact Or.inr ⟨m, hst.has m r hm⟩
      refine ⟨hst.inv, ?_, ?_, ?_⟩
      · rw [e1, List.nodup_append]
        refine ⟨hi.nodup, n1, ?_⟩
        rintro x hx y hy rfl
        obtain ⟨r, r1, r2, r3⟩ := hi.from_ x hx
        have := forest_roots hA.requester r2 hbp r3 (p1 x hy)
        subst this
        rcases r1 with r1 | ⟨m, hm⟩
        · exact hbr r1
        · -- its name is `n`, which was not collected
          obtain ⟨hlt, hnm⟩ := hi.inv.name m r hm
          have e : (L1.obj r).name = n := (hf.name hw1).2
          rw [hobj1 r hlt, hnm] at e
          subst e
          rw [hnone] at hm; cases hm
      · intro x hx
        rw [e1] at hx
        rcases List.mem_append.1 hx with hx | hx
        · obtain ⟨r, r1, r2, r3⟩ := hi.from_ x hx
          exact ⟨r, hact' r (hactive r r1), r2, r3⟩
        · exact ⟨b, hact' b (Or.inr ⟨n, by simp [CState.specify]⟩), hbp, p1 x hx⟩
      · intro hr
        rw [e1]
        exact List.mem_append_left _ (hi.start hr)
    · rename_i hb
      cases h1
      refine ⟨hinv none (fun h => absurd h hb), hi.nodup, ?_, hi.start⟩
      intro x hx
      obtain ⟨r, r1, r2, r3⟩ := hi.from_ x hx
      exact ⟨r, hactive r r1, r2, r3⟩

/-- **C145**, what holds: if every module is explicitly requested in at most one place, those that are so requested are not also
requested by name, and the starting module is not requested, then the dependencies of each module that has some are gone
through exactly once, and no others.  Missing: modules that are explicitly requested in several places (`C145_violated`). -/
theorem C145_partial (hL : Declared L) (hroot : root < L.next) (hA : AskedOnce L root) {fuel steps : Nat} {key : Nat → Nat} {L' : Lib}
    {res walked : List Nat} (h : collectW fuel steps L key root = .ok (L', res, walked)) :
    walked.Nodup ∧ ∀ o, o ∈ walked ↔ (o = root ∨ o ∈ res) ∧ (L'.obj o).opts.has "mdepends" = true := by
  unfold collectW at h
  simp only [bind, Except.bind, pure, Except.pure] at h
  split at h
  · cases h
  rename_i t1 h1
  split at h
  · cases h
  rename_i t2 h2
  cases h
  have h0 : WLoop L root t1 := by
    unfold collectIfW at h1
    have hinv : ∀ ex, WInv L root ex ⟨⟨L, [], [], key, 0⟩, []⟩ := by
      intro ex
      refine ⟨.refl _, hL.wf, by simp, by simp, ?_, by simp⟩
      rintro o (ho | ⟨n, hn⟩) _
      · exact Or.inr (Or.inr ho)
      · cases hn
    split at h1
    · obtain ⟨hst, hmem⟩ := collectInW_ok hL.wf hA fuel _ t1 root (hinv _) hroot (Or.inl rfl)
        (fun x hx => forest_acyclic hA.requester hA.start hx) h1
      obtain ⟨ext, e1, n1, p1⟩ := hst.walked
      simp only [List.nil_append] at e1
      exact ⟨hst.inv, by rw [e1]; exact n1, fun x hx => ⟨root, Or.inl rfl, hA.start, p1 x (e1 ▸ hx)⟩, fun _ => hmem⟩
    · rename_i hno
      cases h1
      exact ⟨hinv _, by simp, by simp, fun hr => absurd hr hno⟩
  obtain ⟨hl, _⟩ := collectLoopW_ok hL.wf hA steps t1 t2 h0 h2
  have hkeys : t2.st.mdepends.keys.Nodup := by
    have e1 := bare_collectIf fuel ⟨⟨L, [], [], key, 0⟩, []⟩ root
    rw [h1] at e1
    have e2 := bare_loop fuel steps t1
    rw [h2] at e2
    have hc := (collectIf_root hL.wf hroot e1.symm).1
    exact (collectLoop_ok steps t1.st t2.st hc e2.symm).1.inv.keys
  have hres : ∀ o, o ∈ (t2.st.mdepends.map (·.2)).mergeSort (fun a b => t2.st.key a ≤ t2.st.key b) ↔ t2.st.Has o := by
    intro o
    rw [List.mem_mergeSort, List.mem_map]
    constructor
    · rintro ⟨⟨n, x⟩, hp, rfl⟩
      exact ⟨n, Dict.get_of_mem hkeys hp⟩
    · rintro ⟨n, hn⟩
      exact ⟨(n, o), Dict.mem_of_get hn, rfl⟩
  refine ⟨hl.nodup, fun o => ⟨fun ho => ?_, fun ⟨ho, hm⟩ => ?_⟩⟩
  · obtain ⟨h1, h2, _⟩ := hl.inv.only o ho
    rw [hres]
    exact ⟨h1, h2⟩
  · rw [hres] at ho
    rcases hl.inv.all o ho hm with h | h | h
    · exact h
    · cases h
    · subst h
      exact hl.start (by rw [← hl.inv.ext.obj o hroot]; exact hm)

end

/-! ### examples -/

/-- the application explicitly requests the special implementation of `log`, which explicitly requests `fmt`, and `net` by name;
`net` requests `fs` and `log` by name -/
def walkDemo : List Op :=
  [.module "/p/a.py" "app" none false [("mdepends", .list [.tuple [.str "log", .str "mem"], .str "net"])],
   .module "/p/a.py" "net" none false [("mdepends", .list [.str "fs", .str "log"])],
   .implementation "/p/a.py" "log" "mem" false [("mdepends", .list [.tuple [.str "fmt", .none]])],
   .module "/p/a.py" "fmt" none false [("mdepends", .list [])],
   .module "/p/a.py" "fs" none false []]

def walkDemoLib : Lib := match Lib.empty.run walkDemo with | .ok L => L | .error _ => Lib.empty

theorem walkDemo_declared : Declared walkDemoLib := ⟨walkDemo, rfl⟩

theorem walkDemo_explicit {a b : Nat} (h : Explicit walkDemoLib a b) : (a, b) = (0, 2) ∨ (a, b) = (2, 3) := by
  obtain ⟨n, i, ⟨v, l, e, h1, h2, h3, h4⟩, hg⟩ := h
  unfold Gives at hg
  match a, h1 with
  | 0, h1 =>
    have e1 : some v = some (Val.list [.tuple [.str "log", .str "mem"], .str "net"]) := h1.symm.trans rfl
    cases e1; cases h2
    simp only [List.mem_cons, List.not_mem_nil, or_false] at h3
    rcases h3 with rfl | rfl
    · cases h4
      have : walkDemoLib.get "log" (some "mem") = .ok (walkDemoLib, 2) := rfl
      rw [this] at hg; cases hg; exact Or.inl rfl
    · cases h4
  | 1, h1 =>
    have e1 : some v = some (Val.list [.str "fs", .str "log"]) := h1.symm.trans rfl
    cases e1; cases h2
    simp only [List.mem_cons, List.not_mem_nil, or_false] at h3
    rcases h3 with rfl | rfl <;> cases h4
  | 2, h1 =>
    have e1 : some v = some (Val.list [.tuple [.str "fmt", .none]]) := h1.symm.trans rfl
    cases e1; cases h2
    simp only [List.mem_cons, List.not_mem_nil, or_false] at h3
    subst h3
    cases h4
    have : walkDemoLib.get "fmt" none = .ok (walkDemoLib, 3) := rfl
    rw [this] at hg; cases hg; exact Or.inr rfl
  | 3, h1 =>
    have e1 : some v = some (Val.list []) := h1.symm.trans rfl
    cases e1; cases h2
    cases h3
  | 4, h1 => cases h1
  | a + 5, h1 => cases h1

theorem walkDemo_once : AskedOnce walkDemoLib 0 where
  requester a a' b h h' := by
    rcases walkDemo_explicit h with e | e <;> rcases walkDemo_explicit h' with e' | e' <;> cases e <;> cases e' <;> rfl
  entry a v l h1 h2 := by
    match a, h1 with
    | 0, h1 =>
      have e1 : some v = some (Val.list [.tuple [.str "log", .str "mem"], .str "net"]) := h1.symm.trans rfl
      cases e1; cases h2
      simp only [List.pairwise_cons, List.mem_singleton, List.not_mem_nil, List.Pairwise.nil]
      refine ⟨?_, by simp⟩
      rintro e rfl b _ ⟨n, i, h, _⟩
      cases h
    | 1, h1 =>
      have e1 : some v = some (Val.list [.str "fs", .str "log"]) := h1.symm.trans rfl
      cases e1; cases h2
      simp only [List.pairwise_cons, List.mem_singleton, List.not_mem_nil, List.Pairwise.nil]
      refine ⟨?_, by simp⟩
      rintro e rfl b _ ⟨n, i, h, _⟩
      cases h
    | 2, h1 =>
      have e1 : some v = some (Val.list [.tuple [.str "fmt", .none]]) := h1.symm.trans rfl
      cases e1; cases h2
      simp
    | 3, h1 =>
      have e1 : some v = some (Val.list []) := h1.symm.trans rfl
      cases e1; cases h2
      simp
    | 4, h1 => cases h1
    | a + 5, h1 => cases h1
  named a n b h hg := by
    obtain ⟨v, l, e, h1, h2, h3, h4⟩ := h
    unfold Gives at hg
    have hb : b = 1 ∨ b = 4 := by
      match a, h1 with
      | 0, h1 =>
        have e1 : some v = some (Val.list [.tuple [.str "log", .str "mem"], .str "net"]) := h1.symm.trans rfl
        cases e1; cases h2
        simp only [List.mem_cons, List.not_mem_nil, or_false] at h3
        rcases h3 with rfl | rfl
        · cases h4
        · cases h4
          have : walkDemoLib.get "net" none = .ok (walkDemoLib, 1) := rfl
          rw [this] at hg; cases hg; exact Or.inl rfl
      | 1, h1 =>
        have e1 : some v = some (Val.list [.str "fs", .str "log"]) := h1.symm.trans rfl
        cases e1; cases h2
        simp only [List.mem_cons, List.not_mem_nil, or_false] at h3
        rcases h3 with rfl | rfl
        · cases h4
          have : walkDemoLib.get "fs" none = .ok (walkDemoLib, 4) := rfl
          rw [this] at hg; cases hg; exact Or.inr rfl
        · cases h4
          cases hg
      | 2, h1 =>
        have e1 : some v = some (Val.list [.tuple [.str "fmt", .none]]) := h1.symm.trans rfl
        cases e1; cases h2
        simp only [List.mem_cons, List.not_mem_nil, or_false] at h3
        subst h3
        cases h4
      | 3, h1 =>
        have e1 : some v = some (Val.list []) := h1.symm.trans rfl
        cases e1; cases h2
        cases h3
      | 4, h1 => cases h1
      | a + 5, h1 => cases h1
    refine ⟨by omega, fun c hc => ?_⟩
    rcases walkDemo_explicit hc with e | e <;> simp only [Prod.mk.injEq] at e <;> omega
  start c hc := by
    rcases walkDemo_explicit hc with e | e <;> simp only [Prod.mk.injEq] at e <;> omega

/-- the hypotheses of `C145_partial` hold for it: the application, `log`, `fmt` and `net` are gone through, in this order -/
example : Declared walkDemoLib ∧ 0 < walkDemoLib.next ∧ AskedOnce walkDemoLib 0 ∧
    ∃ L' res, collectW 10 10 walkDemoLib (fun _ => 0) 0 = .ok (L', res, [0, 2, 3, 1]) :=
  ⟨walkDemo_declared, by decide +kernel, walkDemo_once, _, _, rfl⟩

/-! ### what does not hold -/

/-- the name of the module `i` -/
def floorName (i : Nat) : String := String.ofList (List.replicate (i + 1) 'm')

theorem floorName_inj {i j : Nat} (h : floorName i = floorName j) : i = j := by
  have := congrArg String.toList h
  simp only [floorName, String.toList_ofList] at this
  have := congrArg List.length this
  simpa using this

/-- the module `i` explicitly requests the two modules before it, as far as they exist -/
def floorDeps (i : Nat) : List Val :=
  match i with
  | 0 => []
  | 1 => [.tuple [.str (floorName 0), .str "x"]]
  | i + 2 => [.tuple [.str (floorName (i + 1)), .str "x"], .tuple [.str (floorName i), .str "x"]]

def floorOp (i : Nat) : Op :=
  .implementation "/p/a.py" (floorName i) "x" false [("mdepends", .list (floorDeps i))]

/-- a script that describes the modules `0` … `n` -/
def floors (n : Nat) : List Op := (List.range (n + 1)).map floorOp

theorem floors_prefix (k : Nat) : ∃ L, Lib.empty.run ((List.range k).map floorOp) = .ok L ∧ L.next = k ∧
    (∀ i, i < k → (L.obj i).opts.get "mdepends" = some (.list (floorDeps i))) ∧
    (∀ i, i < k → L.find (floorName i) "x" = some i) ∧ ∀ i, k ≤ i → (L.obj i).opts = [] := by
  induction k with
  | zero => exact ⟨Lib.empty, rfl, rfl, by simp, by simp, fun _ _ => rfl⟩
  | succ k ih =>
    obtain ⟨L, h1, h2, h3, h4, h5⟩ := ih
    rw [List.range_succ, List.map_append]
    unfold Lib.run at h1 ⊢
    rw [List.foldlM_append, h1]
    refine ⟨L.registerImpl (newMod (floorName k) (.str "/p/a.py") (.str (String.ofList (Path.dirname "/p/a.py".toList)))
      [("mdepends", .list (floorDeps k))]) "x", rfl, ?_, ?_, ?_, ?_⟩
    · simp [Lib.registerImpl, h2]
    · intro i hi
      simp only [Lib.registerImpl]
      split
      · rename_i e
        rw [h2] at e
        subst e
        rfl
      · rename_i e
        exact h3 i (by omega)
    · intro i hi
      rw [find_registerImpl]
      split
      · rename_i e
        have := floorName_inj e.1
        rw [h2, this]
      · rename_i e
        refine h4 i ?_
        rcases Nat.lt_succ_iff_lt_or_eq.1 hi with h | h
        · exact h
        · subst h; exact absurd ⟨rfl, rfl⟩ e
    · intro i hi
      simp only [Lib.registerImpl]
      rw [if_neg (by omega)]
      exact h5 i (by omega)

/-- nothing but these modules is collected so far -/
def FloorState (L : Lib) (n : Nat) (s : CState) : Prop :=
  s.lib = L ∧ s.queue = [] ∧ ∀ j, j ≤ n → ∀ o, s.mdepends.get (floorName j) = some o → o = j

theorem floors_walk {L : Lib} {n : Nat} (hd : ∀ i, i ≤ n → (L.obj i).opts.get "mdepends" = some (.list (floorDeps i)))
    (hf : ∀ i, i ≤ n → L.find (floorName i) "x" = some i) (i : Nat) : ∀ (fuel : Nat) (t : WState), i ≤ n → i < fuel →
    FloorState L n t.st →
    ∃ t' ext, collectInW fuel t i = .ok t' ∧ FloorState L n t'.st ∧ t'.walked = t.walked ++ ext ∧ 2 ^ (i / 2) ≤ ext.count 0 := by
  have hentry : ∀ (rec : WState → Nat → Except Err WState) (t : WState) (j : Nat), j ≤ n → FloorState L n t.st →
      ∃ t1 : WState, FloorState L n t1.st ∧ t1.walked = t.walked ∧
        entryW rec t (.tuple [.str (floorName j), .str "x"]) = rec t1 j := by
    intro rec t j hj ⟨h1, h2, h3⟩
    have hget : t.st.lib.get (floorName j) (some "x") = .ok (L, j) := by
      rw [h1, get_some, getImpl_eq, hf j hj]
    have hmd : (L.obj j).opts.has "mdepends" = true := by simp [Dict.has, hd j hj]
    refine ⟨{ t with st := ({ t.st with lib := L } : CState).specify (floorName j) j }, ⟨rfl, h2, ?_⟩, rfl, ?_⟩
    · intro k hk o ho
      simp only [CState.specify, Dict.get_set] at ho
      split at ho
      · rename_i e
        cases ho; exact floorName_inj e
      · exact h3 k hk o ho
    · unfold entryW
      simp only [mdep, bind, Except.bind, pure, Except.pure, throw, throwThe, MonadExceptOf.throw, hget]
      have hc : (t.st.mdepends.has (floorName j) && decide (t.st.mdepends.get (floorName j) ≠ some j)) = false := by
        cases hg : t.st.mdepends.get (floorName j) with
        | none => simp [Dict.has, hg]
        | some o => simp [h3 j hj o hg]
      have hmd' : ((({ t.st with lib := L } : CState).specify (floorName j) j).lib.obj j).opts.has "mdepends" = true := hmd
      rw [hc, if_neg (by simp), if_pos hmd']
  induction i using Nat.strong_induction_on with
  | _ i ih =>
    intro fuel t hi hfu hs
    obtain ⟨fuel, rfl⟩ : ∃ f, fuel = f + 1 := ⟨fuel - 1, by omega⟩
    unfold collectInW
    rw [hs.1, hd i hi]
    simp only [Val.iter, bind, Except.bind]
    match i, ih, hi, hfu with
    | 0, _, _, _ => exact ⟨_, [0], rfl, hs, rfl, by simp⟩
    | 1, ih, hi, hfu =>
      obtain ⟨t1, a1, a2, a3⟩ := hentry (collectInW fuel) { t with walked := t.walked ++ [1] } 0 (by omega) hs
      obtain ⟨t2, ext, b1, b2, b3, b4⟩ := ih 0 (by omega) fuel t1 (by omega) (by omega) a1
      refine ⟨t2, [1] ++ ext, ?_, b2, by rw [b3, a2]; simp, ?_⟩
      · simp only [floorDeps, List.foldlM_cons, List.foldlM_nil, bind, Except.bind, a3, b1]
        rfl
      · have h0 : 2 ^ (0 / 2) = 1 := rfl
        have h1 : 2 ^ (1 / 2) = 1 := rfl
        rw [List.count_append]; omega
    | i + 2, ih, hi, hfu =>
      obtain ⟨t1, a1, a2, a3⟩ := hentry (collectInW fuel) { t with walked := t.walked ++ [i + 2] } (i + 1) (by omega) hs
      obtain ⟨t2, ext, b1, b2, b3, b4⟩ := ih (i + 1) (by omega) fuel t1 (by omega) (by omega) a1
      obtain ⟨t3, c1, c2, c3⟩ := hentry (collectInW fuel) t2 i (by omega) b2
      obtain ⟨t4, ext', d1, d2, d3, d4⟩ := ih i (by omega) fuel t3 (by omega) (by omega) c1
      refine ⟨t4, [i + 2] ++ ext ++ ext', ?_, d2, by rw [d3, c2, b3, a2]; simp, ?_⟩
      · simp only [floorDeps, List.foldlM_cons, List.foldlM_nil, bind, Except.bind, a3, b1, c3, d1]
        rfl
      · have h1 : 2 ^ (i / 2) ≤ 2 ^ ((i + 1) / 2) := Nat.pow_le_pow_right (by omega) (by omega)
        have h2 : (i + 2) / 2 = i / 2 + 1 := by omega
        rw [List.count_append, List.count_append, h2, Nat.pow_succ]
        omega

/-- **C145 violated**: a script describes `2 n + 1` modules, each of which explicitly requests at most two others, described
before it.  Collecting the modules of the last one succeeds, and goes through the dependencies of the first one at least `2 ^ n`
times. -/
theorem C145_violated (n fuel : Nat) (hfuel : 2 * n < fuel) (key : Nat → Nat) :
    (floors (2 * n)).length = 2 * n + 1 ∧
    ∃ L, Lib.empty.run (floors (2 * n)) = .ok L ∧ 2 * n < L.next ∧
      (∀ a b, Explicit L a b → b < a ∧ a ≤ b + 2) ∧
      ∃ L' res walked, (∀ steps, collectW fuel steps L key (2 * n) = .ok (L', res, walked)) ∧ 2 ^ n ≤ walked.count 0 := by
  obtain ⟨L, h1, h2, h3, h4, h5⟩ := floors_prefix (2 * n + 1)
  refine ⟨by simp [floors], L, h1, by omega, ?_, ?_⟩
  · rintro a b ⟨m, i, ⟨v, l, e, e1, e2, e3, e4⟩, hg⟩
    by_cases ha : a < 2 * n + 1
    · rw [h3 a ha] at e1
      cases e1; cases e2
      have hback : ∀ j, j < 2 * n + 1 → m = floorName j → i = some "x" → b = j := by
        rintro j hj rfl rfl
        unfold Gives at hg
        rw [get_some, getImpl_eq, h4 j hj] at hg
        cases hg; rfl
      match a, ha, e3 with
      | 0, _, e3 => cases e3
      | 1, ha, e3 =>
        simp only [floorDeps, List.mem_singleton] at e3
        subst e3
        simp only [mdep, Except.ok.injEq, MDep.exact.injEq] at e4
        have := hback 0 (by omega) e4.1.symm e4.2.symm
        omega
      | a + 2, ha, e3 =>
        simp only [floorDeps, List.mem_cons, List.not_mem_nil, or_false] at e3
        rcases e3 with rfl | rfl
        · simp only [mdep, Except.ok.injEq, MDep.exact.injEq] at e4
          have := hback (a + 1) (by omega) e4.1.symm e4.2.symm
          omega
        · simp only [mdep, Except.ok.injEq, MDep.exact.injEq] at e4
          have := hback a (by omega) e4.1.symm e4.2.symm
          omega
    · rw [h5 a (by omega)] at e1; cases e1
  · obtain ⟨t', ext, a1, a2, a3, a4⟩ := floors_walk (fun i hi => h3 i (by omega)) (fun i hi => h4 i (by omega)) (2 * n) fuel
      ⟨⟨L, [], [], key, 0⟩, []⟩ (le_refl _) hfuel ⟨rfl, rfl, by intro j _ o ho; cases ho⟩
    have hmd : (L.obj (2 * n)).opts.has "mdepends" = true := by simp [Dict.has, h3 (2 * n) (by omega)]
    refine ⟨t'.st.lib, (t'.st.mdepends.map (·.2)).mergeSort (fun a b => t'.st.key a ≤ t'.st.key b), t'.walked, fun steps => ?_, ?_⟩
    · unfold collectW collectIfW
      simp only [hmd, if_true, bind, Except.bind, a1]
      unfold collectLoopW
      simp only [a2.2.1]
      rfl
    · rw [a3, List.nil_append]
      have : 2 * n / 2 = n := by omega
      rw [this] at a4
      exact a4

end Licant.Modules
