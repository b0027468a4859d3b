/-
`collect_modules` comes to an end: C49.
-/
import Mathlib.Data.Finset.Card
import Mathlib.Data.Finset.Range
import Verif.Modules.Collect

set_option autoImplicit false

namespace Licant.Modules
open Licant.Py Relation

variable {root : Nat}

/-! ### the loop -/

theorem mdep_err {v : Val} {e : Err} (h : mdep v = .error e) : e = .raised ∨ e = .exit := by
  unfold mdep at h
  split at h <;> cases h <;> simp

theorem getImpl_err {L : Lib} {n i : String} {e : Err} (h : L.getImpl n i = .error e) : e = .exit := by
  unfold Lib.getImpl at h
  split at h
  · cases h; rfl
  · split at h
    · cases h
    · split at h <;> cases h
      rfl

theorem getDefault_err {L : Lib} {n : String} {e : Err} (h : L.getDefault n = .error e) : e = .exit := by
  unfold Lib.getDefault at h
  split at h
  · cases h; rfl
  · exact getImpl_err h

theorem get_err {L : Lib} {n : String} {i : Option String} {e : Err} (h : L.get n i = .error e) : e = .exit := by
  unfold Lib.get at h
  split at h
  · cases h; rfl
  · split at h
    · exact getDefault_err h
    · exact getImpl_err h

theorem iter_err {v : Val} {e : Err} (h : v.iter = .error e) : e = .raised := by
  unfold Val.iter at h
  split at h <;> cases h
  rfl

/-- an error of one round is an error of the recursive call or a plain one -/
theorem entry_err {rec : CState → Nat → Except Err CState} {s : CState} {v : Val} {e : Err}
    (h : entry rec s v = .error e) : e = .raised ∨ e = .exit ∨
      ∃ n i L o, mdep v = .ok (.exact n i) ∧ s.lib.get n i = .ok (L, o) ∧
        (s.mdepends.get n = none ∨ s.mdepends.get n = some o) ∧
        (L.obj o).opts.has "mdepends" = true ∧ rec (({ s with lib := L } : CState).specify n o) o = .error e := by
  unfold entry at h
  simp only [bind, Except.bind, pure, Except.pure, throw, throwThe, MonadExceptOf.throw] at h
  split at h
  · rename_i e' he'
    cases h
    rcases mdep_err he' with h | h
    · exact Or.inl h
    · exact Or.inr (Or.inl h)
  · rename_i d hd
    cases d with
    | plain n =>
      simp only at h
      split at h <;> cases h
    | exact n i =>
      simp only at h
      split at h
      · rename_i e' he'
        cases h
        exact Or.inr (Or.inl (get_err he'))
      · rename_i r hget
        obtain ⟨L, o⟩ := r
        simp only at h
        split at h
        · cases h; exact Or.inr (Or.inl rfl)
        · rename_i hc
          have hfree : s.mdepends.get n = none ∨ s.mdepends.get n = some o := by
            by_contra hno
            apply hc
            rw [not_or] at hno
            simp only [Bool.and_eq_true, decide_eq_true_eq, Dict.has]
            exact ⟨by rw [Option.isSome_iff_ne_none]; exact hno.1, hno.2⟩
          split at h
          · rename_i hm
            exact Or.inr (Or.inr ⟨n, i, L, o, hd, hget, hfree, hm, h⟩)
          · cases h

theorem fold_err {rec : CState → Nat → Except Err CState} {e : Err} : ∀ (l : List Val) (s : CState),
    l.foldlM (entry rec) s = .error e → e = .raised ∨ e = .exit ∨ ∃ s' o, rec s' o = .error e := by
  intro l
  induction l with
  | nil => intro s h; cases h
  | cons v l ih =>
    intro s h
    simp only [List.foldlM_cons, bind, Except.bind] at h
    split at h
    · rename_i e' he'
      cases h
      rcases entry_err he' with h | h | ⟨n, i, L, o, _, _, _, _, h⟩
      · exact Or.inl h
      · exact Or.inr (Or.inl h)
      · exact Or.inr (Or.inr ⟨_, _, h⟩)
    · exact ih _ h

theorem collectIn_err : ∀ (fuel : Nat) (s : CState) (m : Nat), collectIn fuel s m ≠ .error .diverge := by
  intro fuel
  induction fuel with
  | zero => intro s m h; cases h
  | succ fuel ih =>
    intro s m h
    unfold collectIn at h
    split at h
    · cases h
    · simp only [bind, Except.bind] at h
      split at h
      · rename_i e' he'
        cases h
        cases iter_err he'
      · rcases fold_err _ _ h with h | h | ⟨s', o, h⟩
        · cases h
        · cases h
        · exact ih s' o h

theorem collectIf_err (fuel : Nat) (s : CState) (m : Nat) : collectIf fuel s m ≠ .error .diverge := by
  unfold collectIf
  split
  · exact collectIn_err fuel s m
  · intro h; cases h

/-- the names that are still to be collected -/
def CState.left (s : CState) : Nat := (s.lib.modules.keys.filter (fun n => !s.mdepends.has n)).length

theorem has_iff_keys (d : Dict String Nat) (n : String) : d.has n = true ↔ n ∈ d.keys := Dict.has_iff d n

theorem left_lt {s s' : CState} (hk : s'.lib.modules.keys = s.lib.modules.keys)
    (hd : ∀ n, n ∈ s.mdepends.keys → n ∈ s'.mdepends.keys) {n : String} (hn : n ∈ s.lib.modules.keys)
    (h1 : n ∉ s.mdepends.keys) (h2 : n ∈ s'.mdepends.keys) : s'.left < s.left := by
  unfold CState.left
  rw [hk]
  have hsub : ∀ l : List String, (l.filter (fun n => !s'.mdepends.has n)).length ≤
      (l.filter (fun n => !s.mdepends.has n)).length := by
    intro l
    induction l with
    | nil => simp
    | cons a l ih =>
      simp only [List.filter_cons]
      by_cases ha : s.mdepends.has a = true
      · have ha' : s'.mdepends.has a = true := (Dict.has_iff _ _).2 (hd a ((Dict.has_iff _ _).1 ha))
        simpa [ha, ha'] using ih
      · by_cases ha' : s'.mdepends.has a = true
        · simp only [ha', Bool.not_true, Bool.false_eq_true, if_false, ha, Bool.not_false, if_true,
            List.length_cons]
          omega
        · simp only [ha, ha', Bool.not_false, if_true, List.length_cons]
          omega
  generalize s.lib.modules.keys = l at hn
  induction l with
  | nil => cases hn
  | cons a l ih =>
    simp only [List.filter_cons]
    rcases List.mem_cons.1 hn with rfl | hn
    · have e1 : s.mdepends.has n = false := by
        rw [← Bool.not_eq_true, Dict.has_iff]; exact h1
      have e2 : s'.mdepends.has n = true := (Dict.has_iff _ _).2 h2
      simp only [e1, e2, Bool.not_true, Bool.false_eq_true, if_false, Bool.not_false, if_true,
            List.length_cons]
      have := hsub l
      omega
    · have := ih hn
      by_cases ha : s.mdepends.has a = true
      · have ha' : s'.mdepends.has a = true := (Dict.has_iff _ _).2 (hd a ((Dict.has_iff _ _).1 ha))
        simpa [ha, ha'] using this
      · by_cases ha' : s'.mdepends.has a = true
        · simp only [ha', Bool.not_true, Bool.false_eq_true, if_false, ha, Bool.not_false, if_true,
            List.length_cons]
          omega
        · simp only [ha, ha', Bool.not_false, if_true, List.length_cons]
          omega

/-- one round of the loop -/
theorem round_ok {fuel : Nat} {s s2 : CState} {n : String} {q : List String} {L : Lib} {o : Nat}
    (hc : Complete root s) (hq : s.queue = n :: q) (hh : ¬ s.mdepends.has n = true)
    (hget : s.lib.getDefault n = .ok (L, o))
    (h2 : collectIf fuel (({ s with queue := q, lib := L } : CState).specify n o) o = .ok s2) :
    Complete root s2 ∧ LExt s.lib s2.lib ∧ s2.left < s.left := by
  have hi0 : Inv root { s with queue := q } :=
    ⟨hc.inv.wf, hc.inv.rootlt, hc.inv.keys, hc.inv.name, hc.inv.count, hc.inv.inj, hc.inv.origin, hc.inv.asked,
      hc.inv.conn, fun x hx => hc.inv.queue x (by rw [hq]; exact List.mem_cons_of_mem _ hx)⟩
  have hkey : n ∈ s.lib.modules.keys := by
    unfold Lib.getDefault at hget
    split at hget
    · cases hget
    · unfold Lib.getImpl at hget
      split at hget
      · cases hget
      · rename_i v hv
        rw [← Dict.get_isSome_iff, hv]; rfl
  rw [← get_none] at hget
  obtain ⟨hw, hx, hf⟩ := get_ok hc.inv.wf hget
  obtain ⟨hi1, hg1⟩ := lib_inv hi0 hw hx
  obtain ⟨m, hm1, _, hm2⟩ := hc.inv.queue n (by rw [hq]; simp)
  have hfree : s.mdepends.get n = none := by simpa [Dict.has] using hh
  have hm2' : Requests (L.obj m) (.plain n) := by
    rw [hx.obj m (hc.inv.active_lt hm1)]; exact hm2
  obtain ⟨hi2, hg2⟩ := specify_inv hi1 (n := n) (o := o) (Or.inl hfree) (hf.name hw)
    (Or.inr hf) ⟨m, _, hg1.active hm1, hm2', rfl⟩
  have h2' : (if (L.obj o).opts.has "mdepends" then
      collectIn fuel (({ s with lib := L, queue := q } : CState).specify n o) o
      else .ok (({ s with lib := L, queue := q } : CState).specify n o)) = .ok s2 := h2
  obtain ⟨hst, hd, hk⟩ := specify_step (collectIn_ok fuel) hi1 hi2 hg2 (hf.name hw).2 h2'
  have hn2 : n ∈ s2.mdepends.keys := by rw [← Dict.get_isSome_iff, hd]; rfl
  have hg0 : Grows s s2 := by
    refine ⟨hx.trans hw hst.grows.lib, hst.grows.deps, ?_⟩
    intro x hx
    rw [hq] at hx
    rcases List.mem_cons.1 hx with rfl | hx
    · exact Or.inl hn2
    · exact hst.grows.queue x hx
  have hst0 : Step root s s2 := ⟨hst.inv, hg0, hst.counter, hst.key, hst.fresh⟩
  refine ⟨hc.step hst0, hg0.lib, left_lt hg0.lib.keys (fun n hn => hg0.keys hn) hkey ?_ hn2⟩
  rw [← Dict.has_iff]; exact hh

theorem drop_ok {s : CState} {n : String} {q : List String} (hc : Complete root s) (hq : s.queue = n :: q)
    (hh : s.mdepends.has n = true) : Complete root { s with queue := q } := by
  have hi0 : Inv root { s with queue := q } :=
    ⟨hc.inv.wf, hc.inv.rootlt, hc.inv.keys, hc.inv.name, hc.inv.count, hc.inv.inj, hc.inv.origin, hc.inv.asked,
      hc.inv.conn, fun x hx => hc.inv.queue x (by rw [hq]; exact List.mem_cons_of_mem _ hx)⟩
  have hg : Grows s { s with queue := q } := by
    refine ⟨.refl _, fun _ _ h => h, ?_⟩
    intro x hx
    rw [hq] at hx
    rcases List.mem_cons.1 hx with rfl | hx
    · exact Or.inl ((Dict.has_iff _ _).1 hh)
    · exact Or.inr hx
  exact ⟨hi0, fun m hm => hg.handled (hc.inv.active_lt hm) (hc.handled m hm), hc.ordered⟩

/-- The loop ends; its errors are those of the work on a module. -/
theorem collectLoop_ends {fuel : Nat} (E : Err → Prop) (L0 : Lib)
    (hE : ∀ s o e, LExt L0 s.lib → s.lib.Wf → (∃ n i, s.lib.find n i = some o) →
      collectIf fuel s o = .error e → E e)
    (hx : E .exit) :
    ∀ (k m : Nat) (s : CState), Complete root s → LExt L0 s.lib → s.left = k → s.queue.length = m →
    ∃ S, ∀ steps, S ≤ steps → ∀ e, collectLoop fuel steps s = .error e → E e := by
  intro k
  induction k using Nat.strongRecOn with
  | ind k ihk =>
    intro m
    induction m using Nat.strongRecOn with
    | ind m ihm =>
      intro s hc hL hk hm
      cases hq : s.queue with
      | nil =>
        refine ⟨0, fun steps _ e h => ?_⟩
        unfold collectLoop at h
        rw [hq] at h
        cases h
      | cons n q =>
        by_cases hh : s.mdepends.has n = true
        · obtain ⟨S, hS⟩ := ihm q.length (by rw [← hm, hq]; simp) { s with queue := q } (drop_ok hc hq hh)
            hL hk rfl
          refine ⟨S + 1, fun steps hle e h => ?_⟩
          obtain ⟨t, rfl⟩ : ∃ t, steps = t + 1 := ⟨steps - 1, by omega⟩
          unfold collectLoop at h
          rw [hq] at h
          simp only [hh, if_true] at h
          exact hS t (by omega) e h
        · have hh' : s.mdepends.has n = false := by simpa using hh
          cases hget : s.lib.getDefault n with
          | error e' =>
            refine ⟨1, fun steps hle e h => ?_⟩
            obtain ⟨t, rfl⟩ : ∃ t, steps = t + 1 := ⟨steps - 1, by omega⟩
            unfold collectLoop at h
            rw [hq] at h
            simp only [hh', Bool.false_eq_true, if_false, hget, bind, Except.bind] at h
            cases h
            rw [getDefault_err hget]
            exact hx
          | ok r =>
            obtain ⟨L, o⟩ := r
            cases h2 : collectIf fuel (({ s with queue := q, lib := L } : CState).specify n o) o with
            | error e' =>
              refine ⟨1, fun steps hle e h => ?_⟩
              obtain ⟨t, rfl⟩ : ∃ t, steps = t + 1 := ⟨steps - 1, by omega⟩
              unfold collectLoop at h
              rw [hq] at h
              simp only [hh', Bool.false_eq_true, if_false, hget, bind, Except.bind, h2] at h
              cases h
              rw [← get_none] at hget
              obtain ⟨hw, hx', j, _, hf⟩ := get_ok hc.inv.wf hget
              exact hE _ o e' (hL.trans hc.inv.wf hx') hw ⟨n, j, hf⟩ h2
            | ok s2 =>
              obtain ⟨hc2, hx2, hlt⟩ := round_ok hc hq hh hget h2
              obtain ⟨S, hS⟩ := ihk s2.left (by omega) s2.queue.length s2 hc2 (hL.trans hc.inv.wf hx2) rfl rfl
              refine ⟨S + 1, fun steps hle e h => ?_⟩
              obtain ⟨t, rfl⟩ : ∃ t, steps = t + 1 := ⟨steps - 1, by omega⟩
              unfold collectLoop at h
              rw [hq] at h
              simp only [hh', Bool.false_eq_true, if_false, hget, bind, Except.bind, h2] at h
              exact hS t (by omega) e h

theorem collect_ends {fuel : Nat} {L : Lib} (hL : Declared L) (hr : root < L.next) (key : Nat → Nat)
    (E : Err → Prop)
    (hroot : ∀ e, collectIf fuel ⟨L, [], [], key, 0⟩ root = .error e → E e)
    (hE : ∀ s o e, LExt L s.lib → s.lib.Wf → (∃ n i, s.lib.find n i = some o) →
      collectIf fuel s o = .error e → E e)
    (hx : E .exit) :
    ∃ S, ∀ steps, S ≤ steps → ∀ e, collect fuel steps L key root = .error e → E e := by
  cases h1 : collectIf fuel ⟨L, [], [], key, 0⟩ root with
  | error e' =>
    refine ⟨0, fun steps _ e h => ?_⟩
    unfold collect at h
    simp only [h1, bind, Except.bind] at h
    cases h
    exact hroot _ h1
  | ok s =>
    obtain ⟨hc, hx1⟩ := collectIf_root hL.wf hr h1
    obtain ⟨S, hS⟩ := collectLoop_ends E L hE hx _ _ s hc hx1 rfl rfl
    refine ⟨S, fun steps hle e h => ?_⟩
    unfold collect at h
    simp only [h1, bind, Except.bind, pure, Except.pure] at h
    split at h
    · rename_i e' he'
      cases h
      exact hS steps hle _ he'
    · cases h

/-- C49, first part: the loop over the queue ends, whatever the modules request. -/
theorem C49_loop {L : Lib} (hL : Declared L) (hr : root < L.next) (key : Nat → Nat) (fuel : Nat) :
    ∃ S, ∀ steps, S ≤ steps → collect fuel steps L key root ≠ .error .diverge := by
  obtain ⟨S, hS⟩ := collect_ends (fuel := fuel) hL hr key (· ≠ .diverge)
    (fun e h he => collectIf_err _ _ _ (he ▸ h)) (fun s o e _ _ _ h he => collectIf_err _ _ _ (he ▸ h))
    (by simp)
  exact ⟨S, fun steps hle h => hS steps hle _ h rfl⟩

/-! ### the recursion -/

theorem Explicit.lt {L : Lib} (hw : L.Wf) {a b : Nat} (h : Explicit L a b) : b < L.next := by
  obtain ⟨n, i, _, hg⟩ := h
  exact ((hg.finds hw).name hw).1

/-- A finite acyclic relation has a rank function. -/
theorem exists_rank {L : Lib} (hw : L.Wf) (h : ¬ ∃ m, TransGen (Explicit L) m m) :
    ∃ r : Nat → Nat, (∀ i, r i ≤ L.next) ∧ ∀ i j, Explicit L i j → r j < r i := by
  classical
  refine ⟨fun i => ((Finset.range L.next).filter (fun k => TransGen (Explicit L) i k)).card, ?_, ?_⟩
  · intro i
    have := Finset.card_filter_le (Finset.range L.next) (fun k => TransGen (Explicit L) i k)
    rwa [Finset.card_range] at this
  intro i j hij
  apply Finset.card_lt_card
  rw [Finset.ssubset_iff_of_subset]
  · refine ⟨j, ?_, ?_⟩
    · simp only [Finset.mem_filter, Finset.mem_range]; exact ⟨hij.lt hw, .single hij⟩
    · simp only [Finset.mem_filter, not_and]; intro _ hjj; exact h ⟨j, hjj⟩
  · intro k
    simp only [Finset.mem_filter]
    rintro ⟨hk, hjk⟩
    exact ⟨hk, .head hij hjk⟩

theorem Finds.back {L L' : Lib} (hx : LExt L L') {n : String} {i : Option String} {o : Nat}
    (h : Finds L' n i o) : Finds L n i o ∨ (L'.obj o).opts.has "mdepends" = false := by
  obtain ⟨j, h1, h2⟩ := h
  rcases hx.new n j o h2 with h3 | h3
  · refine Or.inl ⟨j, ?_, h3⟩
    cases i with
    | some i => exact h1
    | none => simp only [Lib.meant] at h1 ⊢; rw [← hx.defimpls]; exact h1
  · exact Or.inr h3.2

/-- the library of the state stays an extension -/
theorem entry_lib {fuel : Nat} {L : Lib} {s s' : CState} {v : Val} (hx : LExt L s.lib) (hw : s.lib.Wf)
    (hrec : ∀ s s' m, LExt L s.lib → s.lib.Wf → collectIn fuel s m = .ok s' → LExt L s'.lib ∧ s'.lib.Wf)
    (h : entry (collectIn fuel) s v = .ok s') : LExt L s'.lib ∧ s'.lib.Wf := by
  unfold entry at h
  simp only [bind, Except.bind, pure, Except.pure, throw, throwThe, MonadExceptOf.throw] at h
  split at h
  · cases h
  · rename_i d hd
    cases d with
    | plain n =>
      simp only at h
      split at h <;> cases h <;> exact ⟨hx, hw⟩
    | exact n i =>
      simp only at h
      split at h
      · cases h
      · rename_i r hget
        obtain ⟨L1, o⟩ := r
        obtain ⟨hw1, hx1, _⟩ := get_ok hw hget
        simp only at h
        split at h
        · cases h
        · split at h
          · exact hrec _ _ _ (hx.trans hw hx1) hw1 h
          · cases h
            exact ⟨hx.trans hw hx1, hw1⟩

theorem fold_lib {fuel : Nat} {L : Lib}
    (hrec : ∀ s s' m, LExt L s.lib → s.lib.Wf → collectIn fuel s m = .ok s' → LExt L s'.lib ∧ s'.lib.Wf) :
    ∀ (l : List Val) (s s' : CState), LExt L s.lib → s.lib.Wf → l.foldlM (entry (collectIn fuel)) s = .ok s' →
      LExt L s'.lib ∧ s'.lib.Wf := by
  intro l
  induction l with
  | nil => intro s s' hx hw h; cases h; exact ⟨hx, hw⟩
  | cons v l ih =>
    intro s s' hx hw h
    simp only [List.foldlM_cons, bind, Except.bind] at h
    split at h
    · cases h
    · rename_i s1 h1
      obtain ⟨hx1, hw1⟩ := entry_lib hx hw hrec h1
      exact ih s1 s' hx1 hw1 h

theorem collectIn_lib {L : Lib} : ∀ (fuel : Nat) (s s' : CState) (m : Nat), LExt L s.lib → s.lib.Wf →
    collectIn fuel s m = .ok s' → LExt L s'.lib ∧ s'.lib.Wf := by
  intro fuel
  induction fuel with
  | zero => intro s s' m _ _ h; cases h
  | succ fuel ih =>
    intro s s' m hx hw h
    unfold collectIn at h
    split at h
    · cases h
    · simp only [bind, Except.bind] at h
      split at h
      · cases h
      · exact fold_lib ih _ _ _ hx hw h

theorem collectIn_deep {L : Lib} (hwL : L.Wf) {r : Nat → Nat} (hr : ∀ i j, Explicit L i j → r j < r i) :
    ∀ (fuel : Nat) (s : CState) (m : Nat), LExt L s.lib → s.lib.Wf → m < L.next → r m < fuel →
      collectIn fuel s m ≠ .error .recursion := by
  intro fuel
  induction fuel with
  | zero => intro s m _ _ _ h; omega
  | succ fuel ih =>
    intro s m hx hw hm hrm h
    unfold collectIn at h
    split at h
    · cases h
    · rename_i v hv
      simp only [bind, Except.bind] at h
      split at h
      · rename_i e' he'
        cases h
        cases iter_err he'
      · rename_i l hl
        rw [hx.obj m hm] at hv
        have hreq : ∀ v ∈ l, ∀ d, mdep v = .ok d → Requests (L.obj m) d :=
          fun e he d hd => ⟨v, l, e, hv, hl, he, hd⟩
        clear hv hl
        -- the rounds
        have key : ∀ (l : List Val) (s : CState), LExt L s.lib → s.lib.Wf →
            (∀ v ∈ l, ∀ d, mdep v = .ok d → Requests (L.obj m) d) →
            l.foldlM (entry (collectIn fuel)) s ≠ .error .recursion := by
          intro l
          induction l with
          | nil => intro s _ _ _ h; cases h
          | cons v l ihl =>
            intro s hx hw hreq h
            simp only [List.foldlM_cons, bind, Except.bind] at h
            split at h
            · rename_i e' he'
              cases h
              rcases entry_err he' with h | h | ⟨n, i, L1, o, hd, hget, _, hmd, h⟩
              · cases h
              · cases h
              · obtain ⟨hw1, hx1, hf⟩ := get_ok hw hget
                have hxL := hx.trans hw hx1
                rcases hf.back hxL with hf' | hf'
                · have hex : Explicit L m o := ⟨n, i, hreq v (by simp) _ hd, hf'.gives⟩
                  have := hr m o hex
                  exact ih _ o hxL hw1 (hf'.name hwL).1 (by omega) h
                · rw [hf'] at hmd; cases hmd
            · rename_i s1 h1
              obtain ⟨hx1, hw1⟩ := entry_lib hx hw (collectIn_lib fuel) h1
              exact ihl s1 hx1 hw1 (fun v hv => hreq v (List.mem_cons_of_mem _ hv)) h
        exact key l s hx hw hreq h

/-- C49 (for scripts without a cycle of explicit requests): `collect_modules` ends, without exceeding the
recursion limit, provided that the limit is greater than the number of modules. -/
theorem C49_partial {L : Lib} (hL : Declared L) (hr : root < L.next) (key : Nat → Nat)
    (hac : ¬ ∃ m, TransGen (Explicit L) m m) (fuel : Nat) (hfuel : L.next < fuel) :
    ∃ S, ∀ steps, S ≤ steps → collect fuel steps L key root ≠ .error .diverge ∧
      collect fuel steps L key root ≠ .error .recursion := by
  obtain ⟨r, hr1, hr2⟩ := exists_rank hL.wf hac
  have hIf : ∀ s o, LExt L s.lib → s.lib.Wf → o < L.next → collectIf fuel s o ≠ .error .recursion := by
    intro s o hx hw ho
    unfold collectIf
    split
    · exact collectIn_deep hL.wf hr2 fuel s o hx hw ho (lt_of_le_of_lt (hr1 o) hfuel)
    · intro h; cases h
  obtain ⟨S, hS⟩ := collect_ends (fuel := fuel) hL hr key (fun e => e ≠ .diverge ∧ e ≠ .recursion)
    (fun e h => ⟨fun he => collectIf_err _ _ _ (he ▸ h), fun he => hIf _ root (.refl _) hL.wf hr (he ▸ h)⟩)
    (fun s o e hx hw ho h => by
      refine ⟨fun he => collectIf_err _ _ _ (he ▸ h), fun he => ?_⟩
      subst he
      obtain ⟨n, i, hf⟩ := ho
      rcases hx.new n i o hf with h1 | ⟨_, h1⟩
      · exact hIf s o hx hw (hL.wf n i o h1).1 h
      · unfold collectIf at h
        rw [h1] at h
        cases h)
    (by simp)
  exact ⟨S, fun steps hle => ⟨fun h => (hS steps hle _ h).1 rfl, fun h => (hS steps hle _ h).2 rfl⟩⟩

/-! ### examples -/

/-- the application asks for `net`, for `fmt`, and for `log` in a special implementation, which in turn asks for `fmt`;
`net` asks for `log` without choosing -/
def collDemo : List Op :=
  [.module "/p/a.py" "app" none false [("mdepends", .list [.str "net", .tuple [.str "fmt", .none], .tuple [.str "log", .str "mem"]])],
   .module "/p/a.py" "net" none false [("mdepends", .list [.str "log"])],
   .module "/p/a.py" "log" none false [],
   .implementation "/p/a.py" "log" "mem" false [("mdepends", .list [.tuple [.str "fmt", .none]])],
   .module "/p/a.py" "fmt" none false []]

def collDemoLib : Lib := match Lib.empty.run collDemo with | .ok L => L | .error _ => Lib.empty

theorem collDemo_declared : Declared collDemoLib := ⟨collDemo, rfl⟩

/-- the result: `log` in the implementation `mem`, then `fmt`, then `net`, and no second `log` -/
theorem collDemo_result : (collect 10 10 collDemoLib (fun _ => 0) 0).toOption.map (·.2) = some [3, 4, 1] := by
  have h2 : ∃ k : Nat → Nat, (k 4, k 3, k 1) = (2, 1, 3) ∧
      (collect 10 10 collDemoLib (fun _ => 0) 0).toOption.map (·.2) =
        some ([4, 3, 1].mergeSort (fun a b => k a ≤ k b)) := ⟨_, rfl, rfl⟩
  obtain ⟨k, hk, h2⟩ := h2
  simp only [Prod.mk.injEq] at hk
  rw [h2]
  simp [List.mergeSort, List.MergeSort.Internal.splitInTwo, hk]

/-- the hypotheses of C46-C48 and C78 hold for it, and its conclusions are not empty -/
example : ∃ L' res, Declared collDemoLib ∧ 0 < collDemoLib.next ∧
    collect 10 10 collDemoLib (fun _ => 0) 0 = .ok (L', res) ∧ res = [3, 4, 1] ∧
    Requests (L'.obj 0) (.exact "log" (some "mem")) ∧ Requests (L'.obj 1) (.plain "log") ∧ Explicit L' 3 4 := by
  refine ⟨_, _, collDemo_declared, by decide +kernel, rfl, Option.some.inj collDemo_result, ?_, ?_, ?_⟩
  · exact ⟨_, _, .tuple [.str "log", .str "mem"], rfl, rfl, by simp, rfl⟩
  · exact ⟨_, _, .str "log", rfl, rfl, by simp, rfl⟩
  · exact ⟨"fmt", none, ⟨_, _, .tuple [.str "fmt", .none], rfl, rfl, by simp, rfl⟩, rfl⟩

/-- The same library has no cycle of explicit requests. -/
theorem collDemo_acyclic : ¬ ∃ m, TransGen (Explicit collDemoLib) m m := by
  have hstep : ∀ a b, Explicit collDemoLib a b → a < b := by
    rintro a b ⟨n, i, ⟨v, l, e, h1, h2, h3, h4⟩, hg⟩
    have hlt : a < 5 := by
      by_contra hge
      have : (collDemoLib.obj a).opts = [] := by
        have h : ∀ x, 5 ≤ x → collDemoLib.obj x = ⟨"", none, []⟩ := by
          intro x hx
          have e0 : x ≠ 0 := by omega
          have e1 : x ≠ 1 := by omega
          have e2 : x ≠ 2 := by omega
          have e3 : x ≠ 3 := by omega
          have e4 : x ≠ 4 := by omega
          show (if x = 4 then _ else if x = 3 then _ else if x = 2 then _ else if x = 1 then _ else
            if x = 0 then _ else _) = _
          rw [if_neg e4, if_neg e3, if_neg e2, if_neg e1, if_neg e0]
          rfl
        rw [h a (by omega)]
      rw [this] at h1
      cases h1
    have hfmt : ∀ b, Gives collDemoLib "fmt" none b → b = 4 := by
      intro b hb
      have h1 : (collDemoLib.get "fmt" none).toOption.map (·.2) = some 4 := by decide +kernel
      unfold Gives at hb
      rw [hb] at h1
      exact Option.some.inj h1
    have hlog : ∀ b, Gives collDemoLib "log" (some "mem") b → b = 3 := by
      intro b hb
      have h1 : (collDemoLib.get "log" (some "mem")).toOption.map (·.2) = some 3 := by decide +kernel
      unfold Gives at hb
      rw [hb] at h1
      exact Option.some.inj h1
    have cases5 : a = 0 ∨ a = 1 ∨ a = 2 ∨ a = 3 ∨ a = 4 := by omega
    rcases cases5 with rfl | rfl | rfl | rfl | rfl
    · have : v = .list [.str "net", .tuple [.str "fmt", .none], .tuple [.str "log", .str "mem"]] := (Option.some.inj h1).symm
      subst this
      cases h2
      simp only [List.mem_cons, List.not_mem_nil, or_false] at h3
      rcases h3 with rfl | rfl | rfl
      · cases h4
      · cases h4
        rw [hfmt b hg]; omega
      · cases h4
        rw [hlog b hg]; omega
    · have : v = .list [.str "log"] := (Option.some.inj h1).symm
      subst this
      cases h2
      simp only [List.mem_cons, List.not_mem_nil, or_false] at h3
      subst h3
      cases h4
    · cases h1
    · have : v = .list [.tuple [.str "fmt", .none]] := (Option.some.inj h1).symm
      subst this
      cases h2
      simp only [List.mem_cons, List.not_mem_nil, or_false] at h3
      subst h3
      cases h4
      rw [hfmt b hg]; omega
    · cases h1
  rintro ⟨m, hm⟩
  have : ∀ a b, TransGen (Explicit collDemoLib) a b → a < b := by
    intro a b h
    induction h with
    | single h => exact hstep _ _ h
    | tail _ h ih => exact lt_trans ih (hstep _ _ h)
  exact lt_irrefl _ (this m m hm)

/-! ### C49 is violated by a cycle of explicit requests -/

/-- two modules that explicitly request each other -/
def cycDemo : List Op :=
  [.module "/p/a.py" "a" none false [("mdepends", .list [.tuple [.str "b", .str "__default__"]])],
   .module "/p/a.py" "b" none false [("mdepends", .list [.tuple [.str "a", .str "__default__"]])]]

def cycLib : Lib := match Lib.empty.run cycDemo with | .ok L => L | .error _ => Lib.empty

theorem cyc_in : ∀ (fuel : Nat) (s : CState), s.lib = cycLib →
    (s.mdepends.get "a" = none ∨ s.mdepends.get "a" = some 0) →
    (s.mdepends.get "b" = none ∨ s.mdepends.get "b" = some 1) →
    collectIn fuel s 0 = .error .recursion ∧ collectIn fuel s 1 = .error .recursion := by
  intro fuel
  induction fuel with
  | zero => intro s _ _ _; exact ⟨rfl, rfl⟩
  | succ fuel ih =>
    intro s hl ha hb
    have hga : cycLib.get "a" (some "__default__") = .ok (cycLib, 0) := rfl
    have hgb : cycLib.get "b" (some "__default__") = .ok (cycLib, 1) := rfl
    have h0 : (cycLib.obj 0).opts.get "mdepends" = some (.list [.tuple [.str "b", .str "__default__"]]) := rfl
    have h1 : (cycLib.obj 1).opts.get "mdepends" = some (.list [.tuple [.str "a", .str "__default__"]]) := rfl
    constructor
    · unfold collectIn
      rw [hl, h0]
      simp only [Val.iter, bind, Except.bind, List.foldlM_cons, entry, mdep, hl, hgb]
      rw [if_neg (by rcases hb with hb | hb <;> simp [Dict.has, hb])]
      rw [if_pos (by simp [CState.specify, Dict.has, h1])]
      rw [(ih _ rfl ?_ ?_).2]
      · show (s.mdepends.set "b" 1).get "a" = none ∨ _
        rw [Dict.get_set, if_neg (by decide)]
        rcases ha with ha | ha
        · exact Or.inl ha
        · right
          show (s.mdepends.set "b" 1).get "a" = _
          rw [Dict.get_set, if_neg (by decide)]
          exact ha
      · right
        show (s.mdepends.set "b" 1).get "b" = _
        simp
    · unfold collectIn
      rw [hl, h1]
      simp only [Val.iter, bind, Except.bind, List.foldlM_cons, entry, mdep, hl, hga]
      rw [if_neg (by rcases ha with ha | ha <;> simp [Dict.has, ha])]
      rw [if_pos (by simp [CState.specify, Dict.has, h0])]
      rw [(ih _ rfl ?_ ?_).1]
      · right
        show (s.mdepends.set "a" 0).get "a" = _
        simp
      · show (s.mdepends.set "a" 0).get "b" = none ∨ _
        rw [Dict.get_set, if_neg (by decide)]
        rcases hb with hb | hb
        · exact Or.inl hb
        · right
          show (s.mdepends.set "a" 0).get "b" = _
          rw [Dict.get_set, if_neg (by decide)]
          exact hb

/-- C49 is violated: on two modules that explicitly request each other, `collect_modules` recurses without end,
whatever the recursion limit. -/
theorem C49_violated : Declared cycLib ∧ 0 < cycLib.next ∧
    ∀ fuel steps key, collect fuel steps cycLib key 0 = .error .recursion := by
  refine ⟨⟨cycDemo, rfl⟩, by decide +kernel, ?_⟩
  intro fuel steps key
  have h := (cyc_in fuel ⟨cycLib, [], [], key, 0⟩ rfl (Or.inl rfl) (Or.inl rfl)).1
  unfold collect collectIf
  rw [if_pos (by rfl), h]
  rfl

end Licant.Modules
