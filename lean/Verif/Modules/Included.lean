/-
`included_from` of licant/cxx_modules.py: which modules a collected module is said to be included from.  C122.
-/
import Verif.Modules.Collect

set_option autoImplicit false

namespace Licant.Modules
open Licant.Py Relation

/-! ### model -/

/-- The state of `collect_modules` with the dictionary `included_from` (licant/cxx_modules.py:350), as the list of the pairs
(`name`, `incfrom`) that were added: `included_from[name]` is the set of the `incfrom` paired with `name`. -/
structure FState where
  st : CState
  inc : List (String × String)

/-- licant/cxx_modules.py:362-366 -/
def FState.add (t : FState) (name incfrom : String) : FState := { t with inc := t.inc ++ [(name, incfrom)] }

/-- licant/cxx_modules.py:381-407 with 362-375, one round of the loop; `from` is `mod.name` -/
def entryF (rec : FState → Nat → Except Err FState) (from_ : String) (t : FState) (md : Val) : Except Err FState := do
  match ← mdep md with
  | .plain n =>
    if t.st.mdepends.has n then pure t
    else pure (({ t with st := { t.st with queue := t.st.queue ++ [n] } } : FState).add n from_)
  | .exact n i =>
    let (L, o) ← t.st.lib.get n i
    let s := { t.st with lib := L }
    if s.mdepends.has n && s.mdepends.get n ≠ some o then throw .exit
    else
      let t := ({ t with st := s.specify n o } : FState).add n from_
      if (t.st.lib.obj o).opts.has "mdepends" then rec t o else pure t

/-- licant/cxx_modules.py:377-407 -/
def collectInF : Nat → FState → Nat → Except Err FState
  | 0, _, _ => .error .recursion
  | fuel + 1, t, o =>
    match (t.st.lib.obj o).opts.get "mdepends" with
    | none => .error .raised
    | some v => do
      let l ← v.iter
      l.foldlM (entryF (collectInF fuel) (t.st.lib.obj o).name) t

/-- licant/cxx_modules.py:409-410, 420-421 -/
def collectIfF (fuel : Nat) (t : FState) (o : Nat) : Except Err FState :=
  if (t.st.lib.obj o).opts.has "mdepends" then collectInF fuel t o else .ok t

/-- licant/cxx_modules.py:412-421; in 418 `mod` is the module that `collect_modules` was called with: `root` is its name -/
def collectLoopF (fuel : Nat) (root : String) : Nat → FState → Except Err FState
  | steps, t =>
    match t.st.queue with
    | [] => .ok t
    | n :: q =>
      match steps with
      | 0 => .error .diverge
      | steps + 1 => do
        let t := { t with st := { t.st with queue := q } }
        if t.st.mdepends.has n then collectLoopF fuel root steps t
        else
          let (L, o) ← t.st.lib.getDefault n
          let t := ({ t with st := ({ t.st with lib := L } : CState).specify n o } : FState).add n root
          let t ← collectIfF fuel t o
          collectLoopF fuel root steps t

/-- licant/cxx_modules.py:346-429 with 423-424: the library afterwards, the list of modules, and `included_from` of each module name -/
def collectF (fuel steps : Nat) (L : Lib) (key : Nat → Nat) (root : Nat) : Except Err (Lib × List Nat × List (String × String)) := do
  let t ← collectIfF fuel ⟨⟨L, [], [], key, 0⟩, []⟩ root
  let t ← collectLoopF fuel (L.obj root).name steps t
  pure (t.st.lib, (t.st.mdepends.map (·.2)).mergeSort (fun a b => t.st.key a ≤ t.st.key b), t.inc)

/-! ### it collects the same -/

/-- the state without the dictionary -/
def strip : Except Err FState → Except Err CState
  | .ok t => .ok t.st
  | .error e => .error e

theorem strip_entry {rec : FState → Nat → Except Err FState} {rec' : CState → Nat → Except Err CState}
    (h : ∀ t o, strip (rec t o) = rec' t.st o) (f : String) (t : FState) (md : Val) :
    strip (entryF rec f t md) = entry rec' t.st md := by
  unfold entryF entry
  cases hm : mdep md with
  | error e => rfl
  | ok d =>
    cases d with
    | plain n =>
      simp only [bind, Except.bind, pure, Except.pure]
      split <;> rfl
    | exact n i =>
      simp only [bind, Except.bind, pure, Except.pure, throw, throwThe, MonadExceptOf.throw]
      cases hg : t.st.lib.get n i with
      | error e => rfl
      | ok r =>
        obtain ⟨L, o⟩ := r
        dsimp only
        split
        · rfl
        · show strip (if _ then rec _ o else _) = if _ then rec' _ o else _
          by_cases hh : (L.obj o).opts.has "mdepends" = true
          · have e1 : ((({ t with st := ({ t.st with lib := L } : CState).specify n o } : FState).add n f).st.lib.obj o).opts.has
                "mdepends" = true := hh
            have e2 : ((({ t.st with lib := L } : CState).specify n o).lib.obj o).opts.has "mdepends" = true := hh
            rw [if_pos e1, if_pos e2, h]
            rfl
          · have e1 : ¬ ((({ t with st := ({ t.st with lib := L } : CState).specify n o } : FState).add n f).st.lib.obj o).opts.has
                "mdepends" = true := hh
            have e2 : ¬ ((({ t.st with lib := L } : CState).specify n o).lib.obj o).opts.has "mdepends" = true := hh
            rw [if_neg e1, if_neg e2]
            rfl

theorem strip_foldl {rec : FState → Nat → Except Err FState} {rec' : CState → Nat → Except Err CState}
    (h : ∀ t o, strip (rec t o) = rec' t.st o) (f : String) : ∀ (l : List Val) (t : FState),
    strip (l.foldlM (entryF rec f) t) = l.foldlM (entry rec') t.st := by
  intro l
  induction l with
  | nil => intro t; rfl
  | cons e l ih =>
    intro t
    simp only [List.foldlM_cons, bind, Except.bind]
    have := strip_entry h f t e
    cases he : entryF rec f t e with
    | error x => rw [he] at this; rw [← this]; rfl
    | ok t' => rw [he] at this; rw [← this]; exact ih t'

theorem strip_collectIn : ∀ (fuel : Nat) (t : FState) (o : Nat), strip (collectInF fuel t o) = collectIn fuel t.st o := by
  intro fuel
  induction fuel with
  | zero => intro t o; rfl
  | succ fuel ih =>
    intro t o
    unfold collectInF collectIn
    cases hv : (t.st.lib.obj o).opts.get "mdepends" with
    | none => rfl
    | some v =>
      simp only [bind, Except.bind]
      cases v.iter with
      | error e => rfl
      | ok l => exact strip_foldl ih _ l t

theorem strip_collectIf (fuel : Nat) (t : FState) (o : Nat) : strip (collectIfF fuel t o) = collectIf fuel t.st o := by
  unfold collectIfF collectIf
  split
  · exact strip_collectIn fuel t o
  · rfl

theorem strip_loop (fuel : Nat) (r : String) : ∀ (steps : Nat) (t : FState),
    strip (collectLoopF fuel r steps t) = collectLoop fuel steps t.st := by
  intro steps
  induction steps with
  | zero =>
    intro t
    unfold collectLoopF collectLoop
    cases t.st.queue <;> rfl
  | succ steps ih =>
    intro t
    unfold collectLoopF collectLoop
    cases hq : t.st.queue with
    | nil => rfl
    | cons n q =>
      simp only [bind, Except.bind]
      split
      · exact ih _
      · cases hg : t.st.lib.getDefault n with
        | error e => rfl
        | ok x =>
          obtain ⟨L, o⟩ := x
          dsimp only
          have := strip_collectIf fuel (({ t with st := ({ t.st with lib := L, queue := q } : CState).specify n o } : FState).add n r) o
          cases hc : collectIfF fuel (({ t with st := ({ t.st with lib := L, queue := q } : CState).specify n o } : FState).add n r) o with
          | error e => rw [hc] at this; erw [← this]; rfl
          | ok t' => rw [hc] at this; erw [← this]; exact ih t'

/-- `collectF` collects what `collect` collects -/
theorem collectF_eq (fuel steps : Nat) (L : Lib) (key : Nat → Nat) (root : Nat) :
    collect fuel steps L key root = match collectF fuel steps L key root with
      | .ok (L', res, _) => .ok (L', res)
      | .error e => .error e := by
  unfold collect collectF
  simp only [bind, Except.bind, pure, Except.pure]
  have h1 := strip_collectIf fuel ⟨⟨L, [], [], key, 0⟩, []⟩ root
  cases hc : collectIfF fuel ⟨⟨L, [], [], key, 0⟩, []⟩ root with
  | error e => rw [hc] at h1; rw [← h1]; rfl
  | ok t =>
    rw [hc] at h1
    rw [← h1]
    dsimp only [strip]
    have h2 := strip_loop fuel (L.obj root).name steps t
    cases hl : collectLoopF fuel (L.obj root).name steps t with
    | error e => rw [hl] at h2; rw [← h2]; rfl
    | ok t' => rw [hl] at h2; rw [← h2]; rfl

/-! ### what is recorded -/

section
variable {root : Nat}

/-- the pair is right, but for the name of the root standing in for the module that asks -/
def SoundP (root : Nat) (s : CState) (p : String × String) : Prop :=
  ∃ m d, s.Active root m ∧ Requests (s.lib.obj m) d ∧ d.name = p.1 ∧
    (p.2 = (s.lib.obj m).name ∨ p.2 = (s.lib.obj root).name ∧ d = .plain p.1)

/-- some module that asks for `n` is recorded -/
def EachP (root : Nat) (t : FState) (n : String) : Prop :=
  ∃ m d, t.st.Active root m ∧ Requests (t.st.lib.obj m) d ∧ d.name = n ∧ (n, (t.st.lib.obj m).name) ∈ t.inc

/-- the explicit requests of `m` are recorded -/
def Recorded (t : FState) (m : Nat) : Prop :=
  ∀ n i, Requests (t.st.lib.obj m) (.exact n i) → (n, (t.st.lib.obj m).name) ∈ t.inc

structure FInv (root : Nat) (t : FState) : Prop where
  sound : ∀ p ∈ t.inc, SoundP root t.st p
  each : ∀ n, n ∈ t.st.mdepends.keys ∨ n ∈ t.st.queue → EachP root t n

structure FStep (root : Nat) (t t' : FState) : Prop where
  inv : FInv root t'
  inc : ∀ p ∈ t.inc, p ∈ t'.inc
  fresh : ∀ o, t'.st.Has o → t.st.Has o ∨ Recorded t' o

theorem SoundP.grow {s s' : CState} (hi : Inv root s) (hg : Grows s s') {p : String × String} (h : SoundP root s p) :
    SoundP root s' p := by
  obtain ⟨m, d, h1, h2, h3, h4⟩ := h
  refine ⟨m, d, hg.active h1, ?_, h3, ?_⟩
  · rw [hg.lib.obj m (hi.active_lt h1)]; exact h2
  · rw [hg.lib.obj m (hi.active_lt h1), hg.lib.obj root hi.rootlt]; exact h4

theorem EachP.grow {t t' : FState} (hi : Inv root t.st) (hg : Grows t.st t'.st) (hinc : ∀ p ∈ t.inc, p ∈ t'.inc) {n : String}
    (h : EachP root t n) : EachP root t' n := by
  obtain ⟨m, d, h1, h2, h3, h4⟩ := h
  have e := hg.lib.obj m (hi.active_lt h1)
  exact ⟨m, d, hg.active h1, by rw [e]; exact h2, h3, by rw [e]; exact hinc _ h4⟩

theorem Recorded.grow {t t' : FState} (hg : Grows t.st t'.st) (hinc : ∀ p ∈ t.inc, p ∈ t'.inc) {m : Nat} (hm : m < t.st.lib.next)
    (h : Recorded t m) : Recorded t' m := by
  intro n i hr
  rw [hg.lib.obj m hm] at hr ⊢
  exact hinc _ (h n i hr)

theorem FStep.refl {t : FState} (h : FInv root t) : FStep root t t := ⟨h, fun _ hp => hp, fun _ ho => Or.inl ho⟩

theorem FStep.trans {t1 t2 t3 : FState} (hi : Inv root t2.st) (hg : Grows t2.st t3.st) (h : FStep root t1 t2)
    (h' : FStep root t2 t3) : FStep root t1 t3 where
  inv := h'.inv
  inc p hp := h'.inc p (h.inc p hp)
  fresh o ho := by
    rcases h'.fresh o ho with h1 | h1
    · rcases h.fresh o h1 with h2 | h2
      · exact Or.inl h2
      · exact Or.inr (h2.grow hg h'.inc (hi.active_lt (Or.inr h1)))
    · exact Or.inr h1

/-- what the recursive call records -/
def FRecOk (root : Nat) (recF : FState → Nat → Except Err FState) (rec : CState → Nat → Except Err CState) : Prop :=
  (∀ t o, strip (recF t o) = rec t.st o) ∧
  ∀ t t' m, Inv root t.st → FInv root t → t.st.Active root m → recF t m = .ok t' → FStep root t t' ∧ Recorded t' m

/-- putting a module into the map, and its name into `included_from` -/
theorem specify_fstep {recF : FState → Nat → Except Err FState} {rec : CState → Nat → Except Err CState} (hF : FRecOk root recF rec)
    {t t' : FState} {s : CState} (hi : Inv root s) (h0 : FInv root ⟨s, t.inc⟩) {n f : String} {o : Nat}
    (hi2 : Inv root (s.specify n o)) (hg2 : Grows s (s.specify n o))
    (hp : SoundP root s (n, f)) (he : EachP root (FState.add ⟨s, t.inc⟩ n f) n)
    (h : (if (s.lib.obj o).opts.has "mdepends" then recF (FState.add ⟨s.specify n o, t.inc⟩ n f) o
      else .ok (FState.add ⟨s.specify n o, t.inc⟩ n f)) = .ok t') :
    FStep root ⟨s, t.inc⟩ t' ∧ (n, f) ∈ t'.inc := by
  have hinc : ∀ p ∈ t.inc, p ∈ (FState.add ⟨s.specify n o, t.inc⟩ n f).inc := fun p hp => List.mem_append_left _ hp
  have hinv : FInv root (FState.add ⟨s.specify n o, t.inc⟩ n f) := by
    refine ⟨fun p hp' => ?_, fun n' hn' => ?_⟩
    · rcases List.mem_append.1 hp' with hp' | hp'
      · exact (h0.sound p hp').grow hi hg2
      · rw [List.mem_singleton] at hp'
        subst hp'
        exact hp.grow hi hg2
    · by_cases e : n' = n
      · subst e
        exact EachP.grow (t := FState.add ⟨s, t.inc⟩ n' f) (t' := FState.add ⟨s.specify n' o, t.inc⟩ n' f) hi hg2 (fun p hp => hp) he
      · refine EachP.grow (t := ⟨s, t.inc⟩) (t' := FState.add ⟨s.specify n o, t.inc⟩ n f) hi hg2 hinc (h0.each n' ?_)
        rcases hn' with hn' | hn'
        · left
          rw [← Dict.get_isSome_iff] at hn' ⊢
          have : (s.mdepends.set n o).get n' = s.mdepends.get n' := Dict.get_set_ne _ _ (Ne.symm e)
          have hn'' : ((s.mdepends.set n o).get n').isSome = true := hn'
          rw [this] at hn''
          exact hn''
        · exact Or.inr hn'
  have hback : ∀ x, (s.specify n o).Has x → x ≠ o → s.Has x := by
    rintro x ⟨n', hn'⟩ hne
    have hn'' : (s.mdepends.set n o).get n' = some x := hn'
    rw [Dict.get_set] at hn''
    split at hn''
    · cases hn''; exact absurd rfl hne
    · exact ⟨n', hn''⟩
  have hself : (s.specify n o).mdepends.get n = some o := by
    show (s.mdepends.set n o).get n = _
    simp
  split at h
  · obtain ⟨h1, h2⟩ := hF.2 (FState.add ⟨s.specify n o, t.inc⟩ n f) t' o hi2 hinv (Or.inr ⟨n, hself⟩) h
    refine ⟨⟨h1.inv, fun p hp => h1.inc p (hinc p hp), fun x hx => ?_⟩, h1.inc _ (List.mem_append_right _ (by simp))⟩
    by_cases e : x = o
    · subst e; exact Or.inr h2
    · rcases h1.fresh x hx with h3 | h3
      · exact Or.inl (hback x h3 e)
      · exact Or.inr h3
  · rename_i hm
    cases h
    refine ⟨⟨hinv, hinc, fun x hx => ?_⟩, List.mem_append_right _ (by simp)⟩
    by_cases e : x = o
    · subst e
      have hm : (s.lib.obj x).opts.has "mdepends" = false := by simpa using hm
      exact Or.inr fun n' i' hr => absurd hr (not_requests hm _)
    · exact Or.inl (hback x hx e)

theorem entryF_ok {recF : FState → Nat → Except Err FState} {rec : CState → Nat → Except Err CState} (hF : FRecOk root recF rec)
    {t t' : FState} {m : Nat} {e : Val} {d : MDep} (hi : Inv root t.st) (h0 : FInv root t)
    (hm : t.st.Active root m) (hd : mdep e = .ok d) (hr : Requests (t.st.lib.obj m) d)
    (h : entryF recF (t.st.lib.obj m).name t e = .ok t') :
    FStep root t t' ∧ ∀ n i, d = .exact n i → (n, (t.st.lib.obj m).name) ∈ t'.inc := by
  unfold entryF at h
  rw [hd] at h
  simp only [bind, Except.bind, pure, Except.pure, throw, throwThe, MonadExceptOf.throw] at h
  cases d with
  | plain n =>
    simp only at h
    split at h
    · cases h
      exact ⟨.refl h0, by intro n' i' e'; cases e'⟩
    · cases h
      have hg : Grows t.st { t.st with queue := t.st.queue ++ [n] } :=
        ⟨.refl _, fun _ _ h => h, fun q hq => Or.inr (List.mem_append_left _ hq)⟩
      have hinc : ∀ p ∈ t.inc, p ∈ t.inc ++ [(n, (t.st.lib.obj m).name)] := fun p hp => List.mem_append_left _ hp
      refine ⟨⟨⟨fun p hp => ?_, fun n' hn' => ?_⟩, hinc, fun o ho => Or.inl ho⟩, by intro n' i' e'; cases e'⟩
      · rcases List.mem_append.1 hp with hp | hp
        · exact (h0.sound p hp).grow hi hg
        · rw [List.mem_singleton] at hp
          subst hp
          exact ⟨m, .plain n, hg.active hm, hr, rfl, Or.inl rfl⟩
      · by_cases e' : n' = n
        · subst e'
          exact ⟨m, .plain n', hg.active hm, hr, rfl, List.mem_append_right _ (List.mem_singleton.2 rfl)⟩
        · refine (h0.each n' ?_).grow hi hg hinc
          rcases hn' with hn' | hn'
          · exact Or.inl hn'
          · rcases List.mem_append.1 hn' with hn' | hn'
            · exact Or.inr hn'
            · exact absurd (List.mem_singleton.1 hn') e'
  | exact n i =>
    simp only at h
    split at h
    · cases h
    · rename_i r hget
      obtain ⟨L, o⟩ := r
      obtain ⟨hw, hx, hf⟩ := get_ok hi.wf hget
      obtain ⟨hi1, hg1⟩ := lib_inv hi hw hx
      have hm1 := hg1.active hm
      have hobj : L.obj m = t.st.lib.obj m := hx.obj m (hi.active_lt hm)
      have hr1 : Requests (L.obj m) (.exact n i) := by rw [hobj]; exact hr
      simp only at h
      split at h
      · cases h
      · rename_i hc
        have hfree : t.st.mdepends.get n = none ∨ t.st.mdepends.get n = some o := by
          by_contra hno
          apply hc
          rw [not_or] at hno
          simp only [Bool.and_eq_true, decide_eq_true_eq, Dict.has]
          exact ⟨by rw [Option.isSome_iff_ne_none]; exact hno.1, hno.2⟩
        obtain ⟨hi2, hg2⟩ := specify_inv hi1 (n := n) (o := o) hfree (hf.name hw)
          (Or.inl ⟨m, i, hm1, hr1, hf⟩) ⟨m, _, hm1, hr1, rfl⟩
        have h1 : FInv root ⟨{ t.st with lib := L }, t.inc⟩ :=
          ⟨fun p hp => (h0.sound p hp).grow hi hg1, fun n' hn' =>
            EachP.grow (t := t) (t' := ⟨{ t.st with lib := L }, t.inc⟩) hi hg1 (fun p hp => hp) (h0.each n' hn')⟩
        obtain ⟨h2, h3⟩ := specify_fstep (t := t) (s := { t.st with lib := L }) (f := (t.st.lib.obj m).name) hF hi1 h1 hi2 hg2
          ⟨m, .exact n i, hm1, hr1, rfl, Or.inl (by rw [← hobj])⟩
          ⟨m, .exact n i, hm1, hr1, rfl, List.mem_append_right _ (by
            rw [List.mem_singleton]
            exact congrArg (fun x : Mod => (n, x.name)) hobj)⟩ h
        refine ⟨⟨h2.inv, h2.inc, h2.fresh⟩, ?_⟩
        intro n' i' e'
        cases e'
        exact h3

theorem foldlF_ok {recF : FState → Nat → Except Err FState} {rec : CState → Nat → Except Err CState} (hF : FRecOk root recF rec)
    (hrec : RecOk root rec) {m : Nat} : ∀ (l : List Val) (t t' : FState), Inv root t.st → FInv root t → t.st.Active root m →
    (∀ e ∈ l, ∀ d, mdep e = .ok d → Requests (t.st.lib.obj m) d) →
    l.foldlM (entryF recF (t.st.lib.obj m).name) t = .ok t' →
    FStep root t t' ∧ ∀ e ∈ l, ∀ n i, mdep e = .ok (.exact n i) → (n, (t.st.lib.obj m).name) ∈ t'.inc := by
  intro l
  induction l with
  | nil =>
    intro t t' hi h0 _ _ h
    cases h
    exact ⟨.refl h0, by intro e he; cases he⟩
  | cons e l ih =>
    intro t t' hi h0 hm hreq h
    simp only [List.foldlM_cons, bind, Except.bind] at h
    cases h1 : entryF recF (t.st.lib.obj m).name t e with
    | error x => rw [h1] at h; cases h
    | ok t1 =>
      rw [h1] at h
      dsimp only at h
      cases hd : mdep e with
      | error x =>
        simp only [entryF, hd, bind, Except.bind] at h1
        cases h1
      | ok d =>
        have h1' : entry rec t.st e = .ok t1.st := by
          rw [← strip_entry hF.1 (t.st.lib.obj m).name t e, h1]; rfl
        obtain ⟨hst, _, _⟩ := entry_ok hrec hi hm hd (hreq e (by simp) d hd) h1'
        obtain ⟨hfs, hk⟩ := entryF_ok hF hi h0 hm hd (hreq e (by simp) d hd) h1
        have hobj := hst.grows.lib.obj m (hi.active_lt hm)
        have h2 : l.foldlM (entryF recF (t1.st.lib.obj m).name) t1 = .ok t' := by rw [hobj]; exact h
        have hreq' : ∀ e' ∈ l, ∀ d', mdep e' = .ok d' → Requests (t1.st.lib.obj m) d' := fun e' he' d' hd' => by
          rw [hobj]
          exact hreq e' (List.mem_cons_of_mem _ he') d' hd'
        obtain ⟨hfs', hall⟩ := ih t1 t' hst.inv hfs.inv (hst.grows.active hm) hreq' h2
        have hst2 : Step root t1.st t'.st := by
          have := strip_foldl hF.1 (t1.st.lib.obj m).name l t1
          rw [h2] at this
          exact (foldl_ok hrec l t1.st t'.st hst.inv (hst.grows.active hm) hreq' this.symm).1
        refine ⟨hfs.trans hst.inv hst2.grows hfs', ?_⟩
        intro e' he' n i hd'
        rcases List.mem_cons.1 he' with rfl | he'
        · rw [hd] at hd'
          cases hd'
          exact hfs'.inc _ (hk n i rfl)
        · rw [← hobj]
          exact hall e' he' n i hd'

theorem collectInF_ok : ∀ (fuel : Nat), FRecOk root (collectInF fuel) (collectIn fuel) := by
  intro fuel
  induction fuel with
  | zero => exact ⟨strip_collectIn 0, by intro t t' m _ _ _ h; cases h⟩
  | succ fuel ih =>
    refine ⟨strip_collectIn _, ?_⟩
    intro t t' m hi h0 hm h
    have hc : collectIn (fuel + 1) t.st m = .ok t'.st := by rw [← strip_collectIn, h]; rfl
    obtain ⟨hst, _, _⟩ := collectIn_ok _ _ _ _ hi hm hc
    unfold collectInF at h
    split at h
    · cases h
    · rename_i v hv
      simp only [bind, Except.bind] at h
      split at h
      · cases h
      · rename_i l hl
        obtain ⟨h1, h2⟩ := foldlF_ok ih (collectIn_ok fuel) l t t' hi h0 hm (fun e he d hd => ⟨v, l, e, hv, hl, he, hd⟩) h
        refine ⟨h1, ?_⟩
        rintro n i ⟨v', l', e, h3, h4, h5, h6⟩
        have hobj := hst.grows.lib.obj m (hi.active_lt hm)
        rw [hobj] at h3 ⊢
        rw [hv] at h3
        cases h3
        rw [hl] at h4
        cases h4
        exact h2 e h5 n i h6

/-- everything that is active is recorded -/
structure FComplete (root : Nat) (t : FState) : Prop where
  inv : FInv root t
  recorded : ∀ m, t.st.Active root m → Recorded t m

theorem FComplete.step {t t' : FState} (hi : Inv root t.st) (hg : Grows t.st t'.st) (h : FComplete root t) (hs : FStep root t t') :
    FComplete root t' := by
  refine ⟨hs.inv, ?_⟩
  rintro m (rfl | hm)
  · exact (h.recorded m (Or.inl rfl)).grow hg hs.inc hi.rootlt
  · rcases hs.fresh m hm with h1 | h1
    · exact (h.recorded m (Or.inr h1)).grow hg hs.inc (hi.active_lt (Or.inr h1))
    · exact h1

theorem collectIfF_root {fuel : Nat} {L : Lib} {key : Nat → Nat} {t : FState} (hw : L.Wf) (hr : root < L.next)
    (h : collectIfF fuel ⟨⟨L, [], [], key, 0⟩, []⟩ root = .ok t) : FComplete root t := by
  have hi : Inv root ⟨L, [], [], key, 0⟩ :=
    ⟨hw, hr, List.nodup_nil, (by intro n o h; cases h), (by rintro o ⟨n, h⟩; cases h),
      (by rintro o o' ⟨n, h⟩; cases h), (by intro n o h; cases h), (by intro n o h; cases h), (by rintro o ⟨n, h⟩; cases h),
      (by intro n h; cases h)⟩
  have h0 : FInv root ⟨⟨L, [], [], key, 0⟩, []⟩ := ⟨(by intro p hp; cases hp), (by rintro n (hn | hn) <;> cases hn)⟩
  unfold collectIfF at h
  split at h
  · obtain ⟨h1, h2⟩ := (collectInF_ok fuel).2 ⟨⟨L, [], [], key, 0⟩, []⟩ t root hi h0 (Or.inl rfl) h
    refine ⟨h1.inv, ?_⟩
    rintro m (rfl | hm)
    · exact h2
    · rcases h1.fresh m hm with ⟨n, h3⟩ | h3
      · cases h3
      · exact h3
  · rename_i hm
    cases h
    refine ⟨h0, ?_⟩
    rintro m (rfl | ⟨n, h1⟩)
    · intro n i hd
      exact absurd hd (not_requests (by simpa using hm) _)
    · cases h1

theorem collectLoopF_ok {fuel : Nat} {r : String} : ∀ (steps : Nat) (t t' : FState), Complete root t.st → FComplete root t →
    r = (t.st.lib.obj root).name → collectLoopF fuel r steps t = .ok t' → FComplete root t' := by
  intro steps
  induction steps with
  | zero =>
    intro t t' _ hf _ h
    unfold collectLoopF at h
    split at h
    · cases h; exact hf
    · cases h
  | succ steps ih =>
    intro t t' hc hf hr h
    unfold collectLoopF at h
    split at h
    · cases h; exact hf
    · rename_i n q hq
      simp only [bind, Except.bind] at h
      have hqi : ∀ x ∈ q, x ∈ t.st.queue := by intro x hx; rw [hq]; exact List.mem_cons_of_mem _ hx
      have hi0 : Inv root { t.st with queue := q } :=
        ⟨hc.inv.wf, hc.inv.rootlt, hc.inv.keys, hc.inv.name, hc.inv.count, hc.inv.inj, hc.inv.origin, hc.inv.asked,
          hc.inv.conn, fun x hx => hc.inv.queue x (hqi x hx)⟩
      have hf0 : FComplete root ⟨{ t.st with queue := q }, t.inc⟩ :=
        ⟨⟨hf.inv.sound, fun x hx => hf.inv.each x (hx.imp id (hqi x))⟩, hf.recorded⟩
      split at h
      · rename_i hh
        have hmem : n ∈ t.st.mdepends.keys := (Dict.has_iff _ _).1 hh
        have hg : Grows t.st { t.st with queue := q } := by
          refine ⟨.refl _, fun _ _ h => h, ?_⟩
          intro x hx
          rw [hq] at hx
          rcases List.mem_cons.1 hx with rfl | hx
          · exact Or.inl hmem
          · exact Or.inr hx
        have hc0 : Complete root { t.st with queue := q } :=
          ⟨hi0, fun m hm => hg.handled (hc.inv.active_lt hm) (hc.handled m hm), hc.ordered⟩
        exact ih ⟨{ t.st with queue := q }, t.inc⟩ t' hc0 hf0 hr h
      · rename_i hh
        split at h
        · cases h
        · rename_i x hget
          obtain ⟨L, o⟩ := x
          rw [← get_none] at hget
          obtain ⟨hw, hx, hfi⟩ := get_ok hc.inv.wf hget
          obtain ⟨hi1, hg1⟩ := lib_inv hi0 hw hx
          obtain ⟨m, hm1, _, hm2⟩ := hc.inv.queue n (by rw [hq]; simp)
          have hfree : t.st.mdepends.get n = none := by
            simpa [Dict.has] using hh
          have hm2' : Requests (L.obj m) (.plain n) := by
            rw [hx.obj m (hc.inv.active_lt hm1)]; exact hm2
          obtain ⟨hi2, hg2⟩ := specify_inv hi1 (n := n) (o := o) (Or.inl hfree) (hfi.name hw)
            (Or.inr hfi) ⟨m, _, hg1.active hm1, hm2', rfl⟩
          have hf1 : FInv root ⟨{ t.st with lib := L, queue := q }, t.inc⟩ :=
            ⟨fun p hp => (hf0.inv.sound p hp).grow hi0 hg1, fun n' hn' =>
              EachP.grow (t := ⟨{ t.st with queue := q }, t.inc⟩) (t' := ⟨{ t.st with lib := L, queue := q }, t.inc⟩) hi0 hg1
                (fun p hp => hp) (hf0.inv.each n' hn')⟩
          simp only at h
          split at h
          · cases h
          · rename_i t2 h2
            have h2' : (if (L.obj o).opts.has "mdepends" then
                collectInF fuel (FState.add ⟨({ t.st with lib := L, queue := q } : CState).specify n o, t.inc⟩ n r) o
                else .ok (FState.add ⟨({ t.st with lib := L, queue := q } : CState).specify n o, t.inc⟩ n r)) = .ok t2 := h2
            have h3 : (if (L.obj o).opts.has "mdepends" then
                collectIn fuel (({ t.st with lib := L, queue := q } : CState).specify n o) o
                else .ok (({ t.st with lib := L, queue := q } : CState).specify n o)) = .ok t2.st := by
              have := strip_collectIf fuel (FState.add ⟨({ t.st with lib := L, queue := q } : CState).specify n o, t.inc⟩ n r) o
              unfold collectIfF at this
              erw [h2'] at this
              exact this.symm
            obtain ⟨hst, hd, _⟩ := specify_step (collectIn_ok fuel) hi1 hi2 hg2 (hfi.name hw).2 h3
            have hroot : r = (L.obj root).name := by rw [hr, hx.obj root hc.inv.rootlt]
            have hE : EachP root (FState.add ⟨{ t.st with lib := L, queue := q }, t.inc⟩ n r) n :=
              EachP.grow (t := ⟨{ t.st with queue := q }, t.inc⟩) (t' := FState.add ⟨{ t.st with lib := L, queue := q }, t.inc⟩ n r)
                hi0 hg1 (fun p hp => List.mem_append_left _ hp) (hf.inv.each n (Or.inr (by rw [hq]; simp)))
            obtain ⟨hfs, _⟩ := specify_fstep (t := t) (s := { t.st with lib := L, queue := q }) (f := r) (collectInF_ok fuel) hi1 hf1
              hi2 hg2 ⟨m, .plain n, hg1.active hm1, hm2', rfl, Or.inr ⟨hroot, rfl⟩⟩ hE h2'
            have hg0 : Grows t.st t2.st := by
              refine ⟨hx.trans hw hst.grows.lib, hst.grows.deps, ?_⟩
              intro x hx
              rw [hq] at hx
              rcases List.mem_cons.1 hx with rfl | hx
              · left
                rw [← Dict.get_isSome_iff, hd]; rfl
              · exact hst.grows.queue x hx
            have hst0 : Step root t.st t2.st := ⟨hst.inv, hg0, hst.counter, hst.key, hst.fresh⟩
            have hfs0 : FStep root t t2 := ⟨hfs.inv, hfs.inc, hfs.fresh⟩
            refine ih t2 t' (hc.step hst0) (hf.step hc.inv hg0 hfs0) ?_ h
            rw [hroot]
            exact (congrArg Mod.name (hst.grows.lib.obj root hi1.rootlt)).symm

end

/-! ### C122 -/

variable {fuel steps root : Nat} {L L' : Lib} {key : Nat → Nat} {res : List Nat} {inc : List (String × String)}

/-- what `cxxm included_from` should print for the collected module `o`: the names of the modules that name it in `mdepends` -/
def IncludesIt (L : Lib) (root : Nat) (res : List Nat) (o : Nat) (f : String) : Prop :=
  ∃ m, (m = root ∨ m ∈ res) ∧ (L.obj m).name = f ∧ ∃ d, Requests (L.obj m) d ∧ d.name = (L.obj o).name

/-- **C122**, the parts that hold.  For every collected module:
* some module that includes it is recorded;
* every module that explicitly requests it (by a tuple) is recorded;
* every recorded name is the name of a module that includes it, or that of the module `collect_modules` was called with - the latter
  only if some module names it without an implementation.
What is missing: see `C122_violated`. -/
theorem C122_partial (hL : Declared L) (hr : root < L.next) (h : collectF fuel steps L key root = .ok (L', res, inc)) :
    collect fuel steps L key root = .ok (L', res) ∧
    ∀ o ∈ res,
      (∃ f, ((L'.obj o).name, f) ∈ inc ∧ IncludesIt L' root res o f) ∧
      (∀ m, m = root ∨ m ∈ res → ∀ i, Requests (L'.obj m) (.exact (L'.obj o).name i) → ((L'.obj o).name, (L'.obj m).name) ∈ inc) ∧
      ∀ f, ((L'.obj o).name, f) ∈ inc → IncludesIt L' root res o f ∨
        f = (L'.obj root).name ∧ ∃ m, (m = root ∨ m ∈ res) ∧ Requests (L'.obj m) (.plain (L'.obj o).name) := by
  have hcol : collect fuel steps L key root = .ok (L', res) := by rw [collectF_eq, h]
  refine ⟨hcol, ?_⟩
  unfold collectF at h
  simp only [bind, Except.bind, pure, Except.pure] at h
  cases h1 : collectIfF fuel ⟨⟨L, [], [], key, 0⟩, []⟩ root with
  | error e => rw [h1] at h; cases h
  | ok t1 =>
    rw [h1] at h
    dsimp only at h
    cases h2 : collectLoopF fuel (L.obj root).name steps t1 with
    | error e => rw [h2] at h; cases h
    | ok t2 =>
      rw [h2] at h
      cases h
      have e1 : collectIf fuel ⟨L, [], [], key, 0⟩ root = .ok t1.st := by
        rw [← strip_collectIf fuel ⟨⟨L, [], [], key, 0⟩, []⟩ root, h1]; rfl
      have e2 : collectLoop fuel steps t1.st = .ok t2.st := by rw [← strip_loop fuel (L.obj root).name, h2]; rfl
      obtain ⟨hc1, hx1⟩ := collectIf_root hL.wf hr e1
      obtain ⟨hc2, _, hq⟩ := collectLoop_ok steps t1.st t2.st hc1 e2
      have hf := collectLoopF_ok steps t1 t2 hc1 (collectIfF_root hL.wf hr h1) (by rw [hx1.obj root hr]) h2
      have hact : ∀ m, m = root ∨ m ∈ (t2.st.mdepends.map (·.2)).mergeSort (fun a b => t2.st.key a ≤ t2.st.key b) ↔
          t2.st.Active root m := by
        intro m
        rw [mem_res hc2.inv]; rfl
      intro o ho
      obtain ⟨n, hn⟩ := (mem_res hc2.inv).1 ho
      have hname := (hc2.inv.name n o hn).2
      rw [hname]
      refine ⟨?_, ?_, ?_⟩
      · obtain ⟨m, d, h3, h4, h5, h6⟩ := hf.inv.each n (Or.inl (by rw [← Dict.get_isSome_iff, hn]; rfl))
        exact ⟨_, h6, m, (hact m).2 h3, rfl, d, h4, by rw [hname]; exact h5⟩
      · intro m hm i hreq
        exact hf.recorded m ((hact m).1 hm) n i hreq
      · intro f hfi
        obtain ⟨m, d, h3, h4, h5, h6⟩ := hf.inv.sound _ hfi
        rcases h6 with h6 | ⟨h6, h7⟩
        · exact Or.inl ⟨m, (hact m).2 h3, h6.symm, d, h4, by rw [hname]; exact h5⟩
        · subst h7
          exact Or.inr ⟨h6, m, (hact m).2 h3, h4⟩

/-- the application asks for `net` and for an implementation of `log`; `net` asks for `log` and `zip` -/
def incDemo : List Op :=
  [.module "/p/a.py" "app" none false [("mdepends", .list [.str "net", .tuple [.str "log", .str "mem"]])],
   .module "/p/a.py" "net" none false [("mdepends", .list [.str "log", .str "zip"])],
   .module "/p/a.py" "log" none false [],
   .implementation "/p/a.py" "log" "mem" false [],
   .module "/p/a.py" "zip" none false []]

def incDemoLib : Lib := match Lib.empty.run incDemo with | .ok L => L | .error _ => Lib.empty

theorem incDemo_declared : Declared incDemoLib := ⟨incDemo, rfl⟩

/-- what is recorded, and the objects collected with their names -/
def incDemoResult : Option (List (String × String) × List (String × Nat)) :=
  match collectIfF 10 ⟨⟨incDemoLib, [], [], fun _ => 0, 0⟩, []⟩ 0 with
  | .error _ => none
  | .ok t => match collectLoopF 10 "app" 10 t with
    | .error _ => none
    | .ok t => some (t.inc, t.st.mdepends)

theorem incDemo_result : incDemoResult = some
    ([("net", "app"), ("log", "app"), ("net", "app"), ("zip", "net"), ("zip", "app")], [("log", 3), ("net", 1), ("zip", 4)]) := by
  decide +kernel

theorem incDemo_runs : ∃ L' res, collectF 10 10 incDemoLib (fun _ => 0) 0 = .ok (L', res,
      [("net", "app"), ("log", "app"), ("net", "app"), ("zip", "net"), ("zip", "app")]) ∧
    (∀ o, o ∈ res ↔ o = 3 ∨ o = 1 ∨ o = 4) ∧ LExt incDemoLib L' := by
  have h := incDemo_result
  unfold incDemoResult at h
  cases h1 : collectIfF 10 ⟨⟨incDemoLib, [], [], fun _ => 0, 0⟩, []⟩ 0 with
  | error e => rw [h1] at h; cases h
  | ok t1 =>
    rw [h1] at h
    dsimp only at h
    cases h2 : collectLoopF 10 "app" 10 t1 with
    | error e => rw [h2] at h; cases h
    | ok t2 =>
      rw [h2] at h
      simp only [Option.some.injEq, Prod.mk.injEq] at h
      have hrun : collectF 10 10 incDemoLib (fun _ => 0) 0 = .ok (t2.st.lib,
          (t2.st.mdepends.map (·.2)).mergeSort (fun a b => t2.st.key a ≤ t2.st.key b), t2.inc) := by
        unfold collectF
        simp only [bind, Except.bind, pure, Except.pure, h1]
        have : (incDemoLib.obj 0).name = "app" := by decide +kernel
        rw [this, h2]
      have hcol : collect 10 10 incDemoLib (fun _ => 0) 0 = .ok (t2.st.lib,
          (t2.st.mdepends.map (·.2)).mergeSort (fun a b => t2.st.key a ≤ t2.st.key b)) := by rw [collectF_eq, hrun]
      obtain ⟨_, _, _, _, hx, _⟩ := collect_ok incDemo_declared.wf (by decide +kernel) hcol
      refine ⟨_, _, by rw [hrun, h.1], fun o => ?_, hx⟩
      rw [List.mem_mergeSort, h.2]
      simp

/-- **C122 is false**: in this library `included_from` of `zip` contains the application, which does not ask for it, and `included_from`
of `log` does not contain `net`, which asks for it. -/
theorem C122_violated : ∃ L root L' res inc, Declared L ∧ root < L.next ∧ collectF 10 10 L (fun _ => 0) root = .ok (L', res, inc) ∧
    (∃ o ∈ res, ∃ f, ((L'.obj o).name, f) ∈ inc ∧ ¬ IncludesIt L' root res o f) ∧
    ∃ o ∈ res, ∃ f, IncludesIt L' root res o f ∧ ((L'.obj o).name, f) ∉ inc := by
  obtain ⟨L', res, h, hres, hx⟩ := incDemo_runs
  have hlt : ∀ o < 5, L'.obj o = incDemoLib.obj o := fun o ho => hx.obj o (lt_of_lt_of_le ho (by decide +kernel))
  refine ⟨incDemoLib, 0, L', res, _, incDemo_declared, by decide +kernel, h, ⟨4, (hres 4).2 (by simp), "app", ?_, ?_⟩,
    3, (hres 3).2 (by simp), "net", ⟨1, Or.inr ((hres 1).2 (by simp)), ?_, .plain "log", ?_, ?_⟩, ?_⟩
  · rw [hlt 4 (by decide)]; decide +kernel
  · rintro ⟨m, hm, hn, d, ⟨v, l, e, h1, h2, h3, h4⟩, hd⟩
    rw [hlt 4 (by decide)] at hd
    have hm' : m = 0 ∨ m = 3 ∨ m = 1 ∨ m = 4 := by
      rcases hm with rfl | hm
      · exact Or.inl rfl
      · exact Or.inr ((hres m).1 hm)
    have hm5 : m < 5 := by omega
    rw [hlt m hm5] at h1 hn
    have hm0 : m = 0 := by
      have : ∀ m < 5, (incDemoLib.obj m).name = "app" → m = 0 := by decide +kernel
      exact this m hm5 hn
    subst hm0
    have e1 : (incDemoLib.obj 0).opts.get "mdepends" = some (.list [.str "net", .tuple [.str "log", .str "mem"]]) := rfl
    rw [e1] at h1
    cases h1
    cases h2
    have e2 : (incDemoLib.obj 4).name = "zip" := rfl
    rw [e2] at hd
    simp only [List.mem_cons, List.not_mem_nil, or_false] at h3
    rcases h3 with rfl | rfl
    · cases h4; simp [MDep.name] at hd
    · cases h4; simp [MDep.name] at hd
  · rw [hlt 1 (by decide)]; rfl
  · rw [hlt 1 (by decide)]; exact ⟨_, _, .str "log", rfl, rfl, by simp, rfl⟩
  · rw [hlt 3 (by decide)]; rfl
  · rw [hlt 3 (by decide)]; decide +kernel

/-- The hypotheses of `C122_partial` hold for the same library, in which modules are requested both ways. -/
example : ∃ L' res inc, Declared incDemoLib ∧ 0 < incDemoLib.next ∧
    collectF 10 10 incDemoLib (fun _ => 0) 0 = .ok (L', res, inc) ∧ 3 ∈ res ∧ 1 ∈ res := by
  obtain ⟨L', res, h, hres, _⟩ := incDemo_runs
  exact ⟨L', res, _, incDemo_declared, by decide +kernel, h, (hres 3).2 (by simp), (hres 1).2 (by simp)⟩

end Licant.Modules
