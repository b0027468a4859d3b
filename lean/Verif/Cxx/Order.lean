/-
The order in which scripts describe modules does not matter for what is built from them: C146.
-/
import Verif.Cxx.Several
import Verif.Modules.Order

set_option autoImplicit false

namespace Licant.Cxx
open Licant.Py Licant.Core Licant.Make Relation
open Licant.Modules (Val Opts Toolchain Lib IsModule Orderless Alike Agree Same)

/-! ### specification -/

/-- the calls, one after the other; with each come the sort keys that the module objects have at that time -/
def describeAll (S : Site) (tc : Toolchain) (fuel steps : Nat) (s : Lib × LReg) (cs : List (Call × (Nat → Nat))) :
    Except Modules.Err (Lib × LReg) :=
  cs.foldlM (fun s c => (c.1.run S tc fuel steps c.2 s.1 s.2).map (·.1)) s

/-! ### proofs -/

section
variable {α β γ δ : Type} {R : α → β → Prop} {Q : γ → δ → Prop}

theorem Agree.bind {x : Except Modules.Err α} {y : Except Modules.Err β} (h : Agree R x y) {f : α → Except Modules.Err γ}
    {g : β → Except Modules.Err δ} (hfg : ∀ a b, R a b → Agree Q (f a) (g b)) : Agree Q (x >>= f) (y >>= g) := by
  cases x with
  | error e =>
    cases y with
    | error e' => exact h
    | ok b => cases h
  | ok a =>
    cases y with
    | error e' => cases h
    | ok b => exact hfg a b h

theorem Agree.of_eq {x : Except Modules.Err α} : Agree (fun a b => a = b) x x := by
  cases x <;> exact rfl

theorem Agree.foldlM {ε : Type} {f : α → ε → Except Modules.Err α} {g : β → ε → Except Modules.Err β}
    (hfg : ∀ a b e, R a b → Agree R (f a e) (g b e)) : ∀ (l : List ε) (a : α) (b : β), R a b → Agree R (l.foldlM f a) (l.foldlM g b) := by
  intro l
  induction l with
  | nil => intro a b h; exact h
  | cons e l ih =>
    intro a b h
    rw [List.foldlM_cons, List.foldlM_cons]
    exact Agree.bind (hfg a b e h) ih

end

variable {tc : Toolchain} {home : String → String} {L M : Lib} {S : Site}

/-- the same options, in libraries that are alike and have grown from `L` and `M` -/
structure LikeOpts (L M : Lib) (a b : Lib × Opts) : Prop where
  alike : Alike a.1 b.1
  ext1 : Modules.LExt L a.1
  ext2 : Modules.LExt M b.1
  opts : a.2 = b.2

theorem alike_inclMods : ∀ (fuel : Nat) (l : List Val) (s t : Lib × Opts), LikeOpts L M s t →
    Agree (LikeOpts L M) (inclMods tc home fuel s l) (inclMods tc home fuel t l) := by
  intro fuel
  induction fuel with
  | zero => intro l s t _; exact rfl
  | succ fuel ih =>
    intro l s t h
    unfold inclMods
    refine Agree.foldlM (fun a b e hab => ?_) l s t h
    cases e with
    | sub name impl =>
      refine Agree.bind (Modules.alike_get hab.alike name impl) fun g g' hg => ?_
      have ho := hg.same.obj hg.alike
      rw [hab.opts, ho]
      refine Agree.bind Agree.of_eq ?_
      rintro r _ rfl
      cases (g'.1.obj g'.2).opts.get "include_modules" with
      | none => exact ⟨hg.alike, hab.ext1.trans hab.alike.wf1 hg.ext1, hab.ext2.trans hab.alike.wf2 hg.ext2, rfl⟩
      | some v =>
        refine Agree.bind Agree.of_eq ?_
        rintro l' _ rfl
        exact ih _ _ _ ⟨hg.alike, hab.ext1.trans hab.alike.wf1 hg.ext1, hab.ext2.trans hab.alike.wf2 hg.ext2, rfl⟩
    | _ => exact rfl

theorem inclCollected_map (mods : List Nat) (loc : Opts) :
    inclCollected tc home L mods loc = (mods.map L.obj).foldlM (fun loc m => merge tc home .incl loc m.opts) loc := by
  unfold inclCollected
  rw [List.foldlM_map]

theorem alike_finalOpts {fuel steps : Nat} {key key' : Nat → Nat} (ha : Alike L M) (name : String) (impl : Option String) (base : Opts) :
    Agree (fun a b => Alike a.1 b.1 ∧ a.2 = b.2) (finalOpts tc home fuel steps key L name impl base)
      (finalOpts tc home fuel steps key' M name impl base) := by
  unfold finalOpts
  refine Agree.bind (Modules.alike_get ha name impl) ?_
  rintro ⟨L1, o⟩ ⟨M1, p⟩ hg
  have ho := hg.same.obj hg.alike
  simp only at ho ⊢
  rw [ho]
  refine Agree.bind Agree.of_eq ?_
  rintro modopts _ rfl
  refine Agree.bind Agree.of_eq ?_
  rintro loc _ rfl
  cases loc.get "include_modules" with
  | none => exact rfl
  | some v =>
    refine Agree.bind Agree.of_eq ?_
    rintro l _ rfl
    refine Agree.bind (alike_inclMods fuel l (L1, loc) (M1, loc) ⟨hg.alike, .refl _, .refl _, rfl⟩) ?_
    rintro ⟨L2, loc2⟩ ⟨M2, _⟩ ⟨h2, x1, x2, rfl⟩
    refine Agree.bind (Modules.sim_collect fuel steps h2 (hg.same.ext x1 x2) key key') ?_
    rintro ⟨L3, m1⟩ ⟨M3, m2⟩ ⟨h3, _, hm⟩
    simp only at hm h3 ⊢
    rw [inclCollected_map, inclCollected_map, hm]
    refine Agree.bind Agree.of_eq ?_
    rintro r _ rfl
    exact ⟨h3, rfl⟩

theorem alike_registerImpl (ha : Alike L M) (m : Modules.Mod) (impl : String) :
    Alike (L.registerImpl m impl) (M.registerImpl m impl) := by
  have wf : ∀ {K : Lib}, K.Wf → (K.registerImpl m impl).Wf := by
    intro K hK n i o h
    rw [Modules.find_registerImpl] at h
    split at h
    · rename_i e
      cases h
      simp [Lib.registerImpl, e.1, e.2]
    · obtain ⟨a, b, c⟩ := hK n i o h
      have hne : o ≠ K.next := by omega
      refine ⟨Nat.lt_succ_of_lt a, ?_, ?_⟩ <;> simp only [Lib.registerImpl] <;> rw [if_neg hne] <;> assumption
  refine ⟨wf ha.wf1, wf ha.wf2, ?_, ?_, ?_, ha.default⟩
  · intro n' i'
    rw [Modules.find_registerImpl, Modules.find_registerImpl]
    split
    · simp
    · exact ha.missing n' i'
  · intro n' i' o p e1 e2
    rw [Modules.find_registerImpl] at e1 e2
    split at e1
    · rename_i e
      rw [if_pos e] at e2
      cases e1; cases e2
      simp [Lib.registerImpl]
    · rename_i e
      rw [if_neg e] at e2
      have l1 := (ha.wf1 n' i' o e1).1
      have l2 := (ha.wf2 n' i' p e2).1
      simp only [Lib.registerImpl]
      rw [if_neg (by omega), if_neg (by omega)]
      exact ha.obj n' i' o p e1 e2
  · intro n'
    rw [Modules.has_registerImpl, Modules.has_registerImpl, ha.known n']

theorem alike_implementation (ha : Alike L M) (script name impl : String) (default : Bool) (kwargs : Opts) :
    Agree Alike (L.implementation script name impl default kwargs) (M.implementation script name impl default kwargs) := by
  have h := alike_registerImpl ha (Modules.newMod name (.str script) (.str (String.ofList (Path.dirname script.toList))) kwargs) impl
  unfold Lib.implementation
  cases default with
  | false => exact h
  | true =>
    simp only [Lib.setDefimpl, Bool.not_true, Bool.and_false, Bool.false_eq_true, if_false, if_true]
    refine ⟨h.wf1, h.wf2, h.missing, h.obj, h.known, ?_⟩
    intro n
    have hd := h.default
    simp only [Dict.get_set, hd]

theorem alike_module (ha : Alike L M) (script name : String) (impl : Option String) (default : Bool) (kwargs : Opts) :
    Agree Alike (L.module script name impl default kwargs) (M.module script name impl default kwargs) := by
  cases impl with
  | none => exact alike_implementation ha script name "__default__" true kwargs
  | some i => exact alike_implementation ha script name i default kwargs

theorem alike_modmake {fuel steps : Nat} {key key' : Nat → Nat} : ∀ (depth : Nat) {L M : Lib} (R : LReg) (name : String)
    (impl : Option String) (base : Opts), Alike L M →
    Agree (fun a b => Alike a.1.1 b.1.1 ∧ a.1.2 = b.1.2 ∧ a.2 = b.2) (modmake S tc fuel steps key depth (L, R) name impl base)
      (modmake S tc fuel steps key' depth (M, R) name impl base) := by
  intro depth
  induction depth with
  | zero => intros; exact rfl
  | succ depth ih =>
    intro L M R name impl base ha
    unfold modmake
    refine Agree.bind (alike_finalOpts ha name impl base) ?_
    rintro ⟨L1, loc⟩ ⟨M1, _⟩ ⟨h1, rfl⟩
    refine Agree.bind Agree.of_eq ?_
    rintro ⟨R1, objs, loc1⟩ _ rfl
    simp only
    rcases loc1.get "modules" with _ | v
    · exact rfl
    refine Agree.bind Agree.of_eq ?_
    rintro subs _ rfl
    refine Agree.bind (R := fun a b : Lib × LReg × List (Option String) => Alike a.1 b.1 ∧ a.2 = b.2)
      (Agree.foldlM ?_ subs (L1, R1, []) (M1, R1, []) ⟨h1, rfl⟩) ?_
    · rintro ⟨L2, R2, res⟩ ⟨M2, _⟩ e ⟨h2, rfl⟩
      cases e with
      | sub n i =>
        refine Agree.bind (ih R2 n i loc1 h2) ?_
        rintro ⟨⟨L3, R3⟩, b, loc3⟩ ⟨⟨M3, _⟩, _⟩ ⟨h3, rfl, rfl⟩
        exact ⟨h3, rfl⟩
      | _ => exact rfl
    · rintro ⟨L2, R2, res⟩ ⟨M2, _⟩ ⟨h2, rfl⟩
      refine Agree.bind Agree.of_eq ?_
      rintro ⟨R3, b⟩ _ rfl
      exact ⟨h2, rfl, rfl⟩

theorem alike_prepareTargets {fuel steps : Nat} {key key' : Nat → Nat} (R : LReg) (name : String) (impl : Option String)
    (kwargs : Opts) (ha : Alike L M) :
    Agree (fun a b => Alike a.1.1 b.1.1 ∧ a.1.2 = b.1.2 ∧ a.2 = b.2) (prepareTargets S tc fuel steps key L R name impl kwargs)
      (prepareTargets S tc fuel steps key' M R name impl kwargs) := by
  unfold prepareTargets
  refine Agree.bind Agree.of_eq ?_
  rintro o _ rfl
  exact alike_modmake _ R name impl _ ha

theorem alike_run_call {fuel steps : Nat} {key key' : Nat → Nat} (R : LReg) (c : Call) (ha : Alike L M) :
    Agree (fun a b => Alike a.1.1 b.1.1 ∧ a.1.2 = b.1.2 ∧ a.2 = b.2) (c.run S tc fuel steps key L R)
      (c.run S tc fuel steps key' M R) := by
  unfold Call.run task
  split
  · refine Agree.bind (alike_module ha _ _ _ _ _) fun L1 M1 h1 => ?_
    refine Agree.bind (alike_prepareTargets R _ _ _ h1) ?_
    rintro ⟨⟨L3, R3⟩, b, loc3⟩ ⟨⟨M3, _⟩, _⟩ ⟨h3, rfl, rfl⟩
    exact ⟨h3, rfl, rfl⟩
  · refine Agree.bind (alike_module ha _ _ _ _ _) fun L1 M1 h1 => ?_
    refine Agree.bind (alike_prepareTargets R _ _ _ h1) ?_
    rintro ⟨⟨L3, R3⟩, b, loc3⟩ ⟨⟨M3, _⟩, _⟩ ⟨h3, rfl, rfl⟩
    cases b with
    | target _ => exact rfl
    | objects l =>
      refine Agree.bind Agree.of_eq ?_
      rintro ts _ rfl
      refine Agree.bind Agree.of_eq ?_
      rintro R4 _ rfl
      exact ⟨h3, rfl, rfl⟩

theorem alike_describeAll {fuel steps : Nat} : ∀ {cs cs' : List (Call × (Nat → Nat))}, cs.map (·.1) = cs'.map (·.1) →
    ∀ {L M : Lib} (R : LReg), Alike L M → Agree (fun a b => Alike a.1 b.1 ∧ a.2 = b.2) (describeAll S tc fuel steps (L, R) cs)
      (describeAll S tc fuel steps (M, R) cs') := by
  intro cs
  induction cs with
  | nil =>
    intro cs' h L M R ha
    cases cs' with
    | nil => exact ⟨ha, rfl⟩
    | cons c cs' => cases h
  | cons c cs ih =>
    intro cs' h L M R ha
    cases cs' with
    | nil => cases h
    | cons c' cs' =>
      obtain ⟨c, k⟩ := c
      obtain ⟨c', k'⟩ := c'
      simp only [List.map_cons, List.cons.injEq] at h
      obtain ⟨rfl, h⟩ := h
      have hr := alike_run_call (S := S) (tc := tc) (fuel := fuel) (steps := steps) (key := k) (key' := k') R c ha
      unfold describeAll
      rw [List.foldlM_cons, List.foldlM_cons]
      refine Agree.bind (R := fun a b => Alike a.1 b.1 ∧ a.2 = b.2) ?_ ?_
      · revert hr
        cases c.run S tc fuel steps k L R <;> cases c.run S tc fuel steps k' M R <;> intro hr
        · exact hr
        · exact hr
        · exact hr
        · exact ⟨hr.1, hr.2.1⟩
      · rintro ⟨L1, R1⟩ ⟨M1, _⟩ ⟨h1, rfl⟩
        exact ih h R1 h1

theorem Agree.map_eq {α β γ : Type} {R : α → β → Prop} {x : Except Modules.Err α} {y : Except Modules.Err β} (h : Agree R x y)
    {f : α → γ} {g : β → γ} (hfg : ∀ a b, R a b → f a = g b) : x.map f = y.map g := by
  cases x with
  | error e =>
    cases y with
    | error e' => have h : e = e' := h; subst h; rfl
    | ok b => cases h
  | ok a =>
    cases y with
    | error e' => cases h
    | ok b => exact congrArg _ (hfg a b h)

/-- **C146**, what is built: if no two calls of a script describe the same implementation or choose the default of the same module,
the calls may come in any order: the options of every module are the same, and the calls of `application` and of its companions that
follow register the same targets, or end in the same way, whatever sort keys the module objects have. -/
theorem C146_targets {ops ops' : List Modules.Op} (ho : Orderless ops) (hp : ops.Perm ops') :
    ∃ L M, Lib.empty.run ops = .ok L ∧ Lib.empty.run ops' = .ok M ∧
      (∀ (tc : Toolchain) (home : String → String) (fuel steps : Nat) (key key' : Nat → Nat) (n : String) (i : Option String)
        (base : Opts), (finalOpts tc home fuel steps key L n i base).map (·.2) =
          (finalOpts tc home fuel steps key' M n i base).map (·.2)) ∧
      ∀ (S : Site) (tc : Toolchain) (fuel steps : Nat) (R : LReg) (cs cs' : List (Call × (Nat → Nat))),
        cs.map (·.1) = cs'.map (·.1) →
          (describeAll S tc fuel steps (L, R) cs).map (·.2) = (describeAll S tc fuel steps (M, R) cs').map (·.2) := by
  obtain ⟨L, hL⟩ := Modules.C45_returns ops Lib.empty ho.pure
  obtain ⟨M, hM⟩ := Modules.C45_returns ops' Lib.empty (fun n i hm => ho.pure n i (hp.mem_iff.2 hm))
  have ha := Modules.alike_run ho hp hL hM
  refine ⟨L, M, hL, hM, ?_, ?_⟩
  · intro tc home fuel steps key key' n i base
    exact Agree.map_eq (alike_finalOpts ha n i base) fun a b h => h.2
  · intro S tc fuel steps R cs cs' h
    exact Agree.map_eq (alike_describeAll h R ha) fun a b h => h.2

end Licant.Cxx
