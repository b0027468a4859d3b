/-
The order in which a script describes its modules (C146).
-/
import Verif.Modules.Term

set_option autoImplicit false

namespace Licant.Modules
open Licant.Py Relation

/-! ### specification -/

/-- No two calls describe the same implementation of a module, no two choose the default implementation of the same module, and
nothing is looked up in between. -/
structure Orderless (ops : List Op) : Prop where
  once : ops.Pairwise fun a b => ∀ n i, (a.registers n i).isSome → b.registers n i = none
  choice : ops.Pairwise fun a b => ∀ n, (a.chooses n).isSome → b.chooses n = none
  pure : ∀ n i, Op.lookup n i ∉ ops

/-- the module `n`, in the implementation `i`, and the modules collected for it: the objects, with names, implementations and
options, in the order in which they are found -/
def modulesOf (fuel steps : Nat) (key : Nat → Nat) (L : Lib) (n : String) (i : Option String) : Except Err (Mod × List Mod) := do
  let (L, o) ← L.get n i
  let (L, res) ← collect fuel steps L key o
  pure (L.obj o, res.map L.obj)

/-! ### the libraries -/

theorem latest_perm {α : Type} {f : Op → Option α} {ops ops' : List Op} (hp : ops.Perm ops')
    (h : ops.Pairwise fun a b => (f a).isSome → f b = none) : latest f ops = latest f ops' := by
  have key : ∀ (l : List Op), (l.Pairwise fun a b => (f a).isSome → f b = none) → ∀ v,
      (l.reverse.findSome? f = some v ↔ ∃ a ∈ l, f a = some v) := by
    intro l hl v
    constructor
    · intro h
      obtain ⟨a, ha, hv⟩ := List.exists_of_findSome?_eq_some h
      exact ⟨a, List.mem_reverse.1 ha, hv⟩
    · rintro ⟨a, ha, hv⟩
      induction l with
      | nil => cases ha
      | cons b l ih =>
        obtain ⟨h1, h2⟩ := List.pairwise_cons.1 hl
        rw [List.reverse_cons, List.findSome?_append]
        rcases List.mem_cons.1 ha with rfl | ha
        · have : l.reverse.findSome? f = none := by
            rw [List.findSome?_eq_none_iff]
            intro x hx
            exact h1 x (List.mem_reverse.1 hx) (by rw [hv]; rfl)
          rw [this]
          simp [hv]
        · rw [ih h2 ha]; rfl
  have hs : ∀ a b, ((f a).isSome → f b = none) → ((f b).isSome → f a = none) := by
    intro a b h hb
    cases ha : f a with
    | none => rfl
    | some v =>
      have := h (by rw [ha]; rfl)
      rw [this] at hb; cases hb
  have h' : ops'.Pairwise fun a b => (f a).isSome → f b = none := (hp.pairwise_iff (fun {a b} => hs a b)).1 h
  apply Option.ext
  intro v
  unfold latest
  rw [key ops h v, key ops' h' v]
  constructor <;> rintro ⟨a, ha, hv⟩
  · exact ⟨a, hp.mem_iff.1 ha, hv⟩
  · exact ⟨a, hp.mem_iff.2 ha, hv⟩

/-- the module object made by a call -/
def described (n i : String) (r : String × Opts) : Mod :=
  { newMod n (.str r.1) (.str (String.ofList (Path.dirname r.1.toList))) r.2 with impl := some i }

theorem exact_run {ops : List Op} : ∀ {L : Lib}, (∀ n i, Op.lookup n i ∉ ops) → Lib.empty.run ops = .ok L →
    ∀ n i, (∀ r, latest (Op.registers n i) ops = some r → ∃ o, L.find n i = some o ∧ o < L.next ∧ L.obj o = described n i r) ∧
      (latest (Op.registers n i) ops = none → L.find n i = none) := by
  induction ops using List.reverseRecOn with
  | nil =>
    intro L _ h n i
    cases h
    refine ⟨?_, fun _ => rfl⟩
    intro r h
    cases h
  | append_singleton ops op ih =>
    intro L hno h n i
    have hr0 := rel_run h
    unfold Lib.run at h
    rw [List.foldlM_append] at h
    simp only [List.foldlM_cons, List.foldlM_nil, bind, Except.bind, pure, Except.pure] at h
    split at h
    · cases h
    rename_i L1 h1
    split at h
    · cases h
    rename_i L2 h2
    cases h
    have ih' := ih (fun n i hm => hno n i (List.mem_append_left _ hm)) h1 n i
    have hr1 := rel_run (ops := ops) h1
    rw [latest_snoc]
    -- a call that describes an implementation
    have hreg : ∀ (script name impl : String) (kw : Opts) (L3 : Lib),
        L3.find n i = (L1.registerImpl (newMod name (.str script) (.str (String.ofList (Path.dirname script.toList))) kw) impl).find n i →
        L3.obj = (L1.registerImpl (newMod name (.str script) (.str (String.ofList (Path.dirname script.toList))) kw) impl).obj →
        L3.next = L1.next + 1 →
        op.registers n i = (if name = n ∧ impl = i then some (script, kw) else none) →
        (∀ r, (op.registers n i).or (latest (Op.registers n i) ops) = some r →
          ∃ o, L3.find n i = some o ∧ o < L3.next ∧ L3.obj o = described n i r) ∧
        ((op.registers n i).or (latest (Op.registers n i) ops) = none → L3.find n i = none) := by
      intro script name impl kw L3 e1 e2 e3 e4
      rw [e1, e2, e3, e4, find_registerImpl]
      by_cases hc : name = n ∧ impl = i
      · obtain ⟨rfl, rfl⟩ := hc
        refine ⟨?_, ?_⟩
        · intro r hr
          have hr : (some (script, kw)).or (latest (Op.registers name impl) ops) = some r := by
            simpa only [and_self, if_true] using hr
          cases hr
          refine ⟨L1.next, by simp [newMod], Nat.lt_succ_self _, ?_⟩
          simp [Lib.registerImpl, described]
        · intro hr; simp at hr
      · have hc' : ¬ ((newMod name (.str script) (.str (String.ofList (Path.dirname script.toList))) kw).name = n ∧ impl = i) := hc
        rw [if_neg hc, if_neg hc', Option.none_or]
        refine ⟨?_, ih'.2⟩
        intro r hr
        obtain ⟨o, a1, a2, a3⟩ := ih'.1 r hr
        refine ⟨o, a1, Nat.lt_succ_of_lt a2, ?_⟩
        simp only [Lib.registerImpl]
        rw [if_neg (by omega)]
        exact a3
    cases op with
    | module script name impl default kwargs =>
      cases impl with
      | none =>
        simp only [Lib.op, Lib.module, Lib.implementation, if_true, Lib.setDefimpl, Bool.not_true, Bool.and_false,
          Bool.false_eq_true, if_false] at h2
        cases h2
        refine hreg script name "__default__" kwargs _ rfl rfl rfl ?_
        simp only [Op.registers, eq_comm (a := i)]
      | some impl =>
        simp only [Lib.op, Lib.module, Lib.implementation, Lib.setDefimpl, Bool.not_true, Bool.and_false,
          Bool.false_eq_true, if_false] at h2
        split at h2 <;> cases h2 <;> exact hreg script name impl kwargs _ rfl rfl rfl rfl
    | implementation script name impl default kwargs =>
      simp only [Lib.op, Lib.implementation, Lib.setDefimpl, Bool.not_true, Bool.and_false, Bool.false_eq_true, if_false] at h2
      split at h2 <;> cases h2 <;> exact hreg script name impl kwargs _ rfl rfl rfl rfl
    | choose name impl =>
      simp only [Lib.op, Lib.setDefimpl, Bool.not_true, Bool.and_false, Bool.false_eq_true, if_false] at h2
      cases h2
      simp only [Op.registers, Option.none_or]
      exact ih'
    | lookup m j => exact absurd (by simp) (hno m j)

/-- two libraries with the same modules, numbered differently -/
structure Alike (L M : Lib) : Prop where
  wf1 : L.Wf
  wf2 : M.Wf
  missing : ∀ n i, L.find n i = none ↔ M.find n i = none
  obj : ∀ n i o p, L.find n i = some o → M.find n i = some p → L.obj o = M.obj p
  known : ∀ n, L.modules.get n = none ↔ M.modules.get n = none
  default : ∀ n, L.defimpls.get n = M.defimpls.get n

/-- the same module in both libraries -/
def Same (L M : Lib) (o p : Nat) : Prop := ∃ n i, L.find n i = some o ∧ M.find n i = some p

theorem alike_run {ops ops' : List Op} (ho : Orderless ops) (hp : ops.Perm ops') {L M : Lib}
    (h : Lib.empty.run ops = .ok L) (h' : Lib.empty.run ops' = .ok M) : Alike L M := by
  have hno' : ∀ n i, Op.lookup n i ∉ ops' := fun n i hm => ho.pure n i (hp.mem_iff.2 hm)
  have e1 : ∀ n i, latest (Op.registers n i) ops = latest (Op.registers n i) ops' :=
    fun n i => latest_perm hp (ho.once.imp fun hab => hab n i)
  have e2 : ∀ n, latest (Op.chooses n) ops = latest (Op.chooses n) ops' :=
    fun n => latest_perm hp (ho.choice.imp fun hab => hab n)
  have x1 := exact_run ho.pure h
  have x2 := exact_run hno' h'
  have r1 := rel_run h
  have r2 := rel_run h'
  have hno : ∀ n i, L.find n i = none ↔ M.find n i = none := by
    intro n i
    cases hl : latest (Op.registers n i) ops with
    | none => exact ⟨fun _ => (x2 n i).2 (by rw [← e1]; exact hl), fun _ => (x1 n i).2 hl⟩
    | some r =>
      obtain ⟨o, a, _⟩ := (x1 n i).1 r hl
      obtain ⟨p, b, _⟩ := (x2 n i).1 r (by rw [← e1]; exact hl)
      rw [a, b]; simp
  refine ⟨Declared.wf ⟨_, h⟩, Declared.wf ⟨_, h'⟩, hno, ?_, ?_, ?_⟩
  · intro n i o p a b
    cases hl : latest (Op.registers n i) ops with
    | none => rw [(x1 n i).2 hl] at a; cases a
    | some r =>
      obtain ⟨o', a1, _, a2⟩ := (x1 n i).1 r hl
      obtain ⟨p', b1, _, b2⟩ := (x2 n i).1 r (by rw [← e1]; exact hl)
      rw [a] at a1; rw [b] at b1
      cases a1; cases b1
      rw [a2, b2]
  · intro n
    rw [← not_iff_not]
    have k1 := r1.known n
    have k2 := r2.known n
    unfold Known at k1 k2
    simp only [e1] at k1
    exact k1.trans k2.symm
  · intro n
    rw [r1.chosen n, r2.chosen n, e2]

section
variable {L M : Lib}

theorem Same.obj (ha : Alike L M) {o p : Nat} (h : Same L M o p) : L.obj o = M.obj p := by
  obtain ⟨n, i, a, b⟩ := h
  exact ha.obj n i o p a b

theorem Same.iff (ha : Alike L M) {o p o' p' : Nat} (h : Same L M o p) (h' : Same L M o' p') : o = o' ↔ p = p' := by
  obtain ⟨n, i, a, b⟩ := h
  obtain ⟨n', i', a', b'⟩ := h'
  constructor
  · rintro rfl
    have e1 := ha.wf1 n i o a
    have e2 := ha.wf1 n' i' o a'
    have hn : n = n' := by rw [← e1.2.1, ← e2.2.1]
    have hi : i = i' := Option.some.inj (by rw [← e1.2.2, ← e2.2.2])
    subst hn; subst hi
    rw [b] at b'; cases b'; rfl
  · rintro rfl
    have e1 := ha.wf2 n i p b
    have e2 := ha.wf2 n' i' p b'
    have hn : n = n' := by rw [← e1.2.1, ← e2.2.1]
    have hi : i = i' := Option.some.inj (by rw [← e1.2.2, ← e2.2.2])
    subst hn; subst hi
    rw [a] at a'; cases a'; rfl

/-- both end in the same way -/
def Agree {α β : Type} (R : α → β → Prop) : Except Err α → Except Err β → Prop
  | .ok a, .ok b => R a b
  | .error e, .error e' => e = e'
  | _, _ => False

/-- after a lookup -/
structure Looked (L M : Lib) (a b : Lib × Nat) : Prop where
  alike : Alike a.1 b.1
  ext1 : LExt L a.1
  ext2 : LExt M b.1
  same : Same a.1 b.1 a.2 b.2

theorem alike_getImpl (ha : Alike L M) (n i : String) : Agree (Looked L M) (L.getImpl n i) (M.getImpl n i) := by
  rw [getImpl_eq, getImpl_eq]
  cases h1 : L.find n i with
  | some o =>
    cases h2 : M.find n i with
    | none => rw [(ha.missing n i).2 h2] at h1; cases h1
    | some p => exact ⟨ha, .refl _, .refl _, n, i, h1, h2⟩
  | none =>
    rw [(ha.missing n i).1 h1]
    simp only
    by_cases hc : i = "__none__" ∧ L.modules.get n ≠ none
    · have hc' : i = "__none__" ∧ M.modules.get n ≠ none := ⟨hc.1, fun h => hc.2 ((ha.known n).2 h)⟩
      rw [if_pos hc, if_pos hc']
      obtain ⟨rfl, hk⟩ := hc
      have g1 : L.getImpl n "__none__" = .ok (L.registerImpl (newMod n .none .none []) "__none__", L.next) := by
        rw [getImpl_eq, h1]; simp [hk]
      have g2 : M.getImpl n "__none__" = .ok (M.registerImpl (newMod n .none .none []) "__none__", M.next) := by
        rw [getImpl_eq, (ha.missing n _).1 h1]; simp [hc'.2]
      obtain ⟨w1, x1, f1⟩ := getImpl_ok ha.wf1 g1
      obtain ⟨w2, x2, f2⟩ := getImpl_ok ha.wf2 g2
      refine ⟨⟨w1, w2, ?_, ?_, ?_, ha.default⟩, x1, x2, n, "__none__", f1, f2⟩
      · intro n' i'
        rw [find_registerImpl, find_registerImpl]
        split
        · simp
        · exact ha.missing n' i'
      · intro n' i' o p e1 e2
        rw [find_registerImpl] at e1 e2
        split at e1
        · rename_i e
          rw [if_pos e] at e2
          cases e1; cases e2
          simp [Lib.registerImpl]
        · rename_i e
          rw [if_neg e] at e2
          have l1 := (ha.wf1 n' i' o e1).1
          have l2 := (ha.wf2 n' i' p e2).1
          simp only [Lib.registerImpl]
          rw [if_neg (by omega), if_neg (by omega)]
          exact ha.obj n' i' o p e1 e2
      · intro n'
        rw [has_registerImpl, has_registerImpl, ha.known n']
    · have hc' : ¬ (i = "__none__" ∧ M.modules.get n ≠ none) := fun h => hc ⟨h.1, fun h' => h.2 ((ha.known n).1 h')⟩
      rw [if_neg hc, if_neg hc']
      rfl

theorem alike_getDefault (ha : Alike L M) (n : String) : Agree (Looked L M) (L.getDefault n) (M.getDefault n) := by
  unfold Lib.getDefault
  rw [ha.default n]
  cases M.defimpls.get n with
  | none => rfl
  | some i => exact alike_getImpl ha n i

theorem alike_get (ha : Alike L M) (n : String) (i : Option String) : Agree (Looked L M) (L.get n i) (M.get n i) := by
  cases i with
  | none => rw [get_none, get_none]; exact alike_getDefault ha n
  | some i => rw [get_some, get_some]; exact alike_getImpl ha n i

theorem Same.ext {L' M' : Lib} (x : LExt L L') (y : LExt M M') {o p : Nat} (h : Same L M o p) : Same L' M' o p := by
  obtain ⟨n, i, a, b⟩ := h
  exact ⟨n, i, x.find _ _ _ a, y.find _ _ _ b⟩

end

/-! ### the collections -/

/-- the same collection, so far -/
structure Sim (s t : CState) : Prop where
  alike : Alike s.lib t.lib
  queue : s.queue = t.queue
  counter : s.counter = t.counter
  mdepends : List.Forall₂ (fun x y => x.1 = y.1 ∧ Same s.lib t.lib x.2 y.2 ∧ s.key x.2 = t.key y.2) s.mdepends t.mdepends

theorem forall_get {R : Nat → Nat → Prop} {d e : Dict String Nat} (h : List.Forall₂ (fun x y => x.1 = y.1 ∧ R x.2 y.2) d e) (n : String) :
    (d.get n = none ∧ e.get n = none) ∨ ∃ o p, d.get n = some o ∧ e.get n = some p ∧ R o p := by
  induction h with
  | nil => exact Or.inl ⟨rfl, rfl⟩
  | cons hxy _ ih =>
    rename_i x y xs ys _
    obtain ⟨k, o⟩ := x
    obtain ⟨k', p⟩ := y
    obtain ⟨e, hs⟩ := hxy
    have e : k = k' := e
    subst e
    by_cases hk : k = n
    · exact Or.inr ⟨o, p, by simp [Dict.get, hk], by simp [Dict.get, hk], hs⟩
    · simp only [Dict.get, hk, if_false]
      exact ih

theorem forall_set {R R' : Nat → Nat → Prop} {d e : Dict String Nat} (h : List.Forall₂ (fun x y => x.1 = y.1 ∧ R x.2 y.2) d e)
    (hR : ∀ a b, R a b → R' a b) (n : String) {o p : Nat} (hop : R' o p) :
    List.Forall₂ (fun x y => x.1 = y.1 ∧ R' x.2 y.2) (d.set n o) (e.set n p) := by
  induction h with
  | nil => exact .cons ⟨rfl, hop⟩ .nil
  | cons hxy hrest ih =>
    rename_i x y xs ys
    obtain ⟨k, a⟩ := x
    obtain ⟨k', b⟩ := y
    obtain ⟨e, e2⟩ := hxy
    have e : k = k' := e
    subst e
    by_cases hk : k = n
    · simp only [Dict.set, hk, if_true]
      exact .cons ⟨rfl, hop⟩ (hrest.imp fun _ _ e => ⟨e.1, hR _ _ e.2⟩)
    · simp only [Dict.set, hk, if_false]
      exact .cons ⟨rfl, hR _ _ e2⟩ ih

theorem sim_get {s t : CState} (h : Sim s t) (n : String) :
    (s.mdepends.get n = none ∧ t.mdepends.get n = none) ∨
    ∃ o p, s.mdepends.get n = some o ∧ t.mdepends.get n = some p ∧ Same s.lib t.lib o p := by
  rcases forall_get (R := fun a b => Same s.lib t.lib a b ∧ s.key a = t.key b) h.mdepends n with h | ⟨o, p, h1, h2, h3⟩
  · exact Or.inl h
  · exact Or.inr ⟨o, p, h1, h2, h3.1⟩

theorem sim_has {s t : CState} (h : Sim s t) (n : String) : s.mdepends.has n = t.mdepends.has n := by
  unfold Dict.has
  rcases sim_get h n with ⟨h1, h2⟩ | ⟨o, p, h1, h2, _⟩ <;> simp [h1, h2]

theorem sim_lib {s t : CState} (h : Sim s t) {L M : Lib} (ha : Alike L M) (x : LExt s.lib L) (y : LExt t.lib M) :
    Sim { s with lib := L } { t with lib := M } where
  alike := ha
  queue := h.queue
  counter := h.counter
  mdepends := h.mdepends.imp fun _ _ e => ⟨e.1, e.2.1.ext x y, e.2.2⟩

theorem sim_specify {s t : CState} (h : Sim s t) {o p : Nat} (n : String) (hs : Same s.lib t.lib o p) :
    Sim (s.specify n o) (t.specify n p) := by
  refine ⟨h.alike, h.queue, by simp [CState.specify, h.counter], ?_⟩
  have hkey : ∀ a b, Same s.lib t.lib a b → s.key a = t.key b → (s.specify n o).key a = (t.specify n p).key b := by
    intro a b hab e
    have := hab.iff h.alike hs
    simp only [CState.specify]
    by_cases ha : a = o
    · rw [if_pos ha, if_pos (this.1 ha), h.counter]
    · rw [if_neg ha, if_neg (fun hb => ha (this.2 hb)), e]
  exact forall_set (R := fun a b => Same s.lib t.lib a b ∧ s.key a = t.key b)
    (R' := fun a b => Same s.lib t.lib a b ∧ (s.specify n o).key a = (t.specify n p).key b) h.mdepends (fun a b hab => ⟨hab.1, hkey a b hab.1 hab.2⟩) n ⟨hs, by simp [CState.specify, h.counter]⟩

/-- where the option lists of the modules are the same, so are the rounds -/
theorem sim_entry {rec rec' : CState → Nat → Except Err CState}
    (hrec : ∀ s t o p, Sim s t → Same s.lib t.lib o p → Agree Sim (rec s o) (rec' t p)) {s t : CState} (h : Sim s t) (md : Val) :
    Agree Sim (entry rec s md) (entry rec' t md) := by
  unfold entry
  simp only [bind, Except.bind, pure, Except.pure, throw, throwThe, MonadExceptOf.throw]
  cases mdep md with
  | error e => rfl
  | ok d =>
    cases d with
    | plain n =>
      simp only [sim_has h n]
      split
      · exact h
      · exact ⟨h.alike, by show s.queue ++ [n] = t.queue ++ [n]; rw [h.queue], h.counter, h.mdepends⟩
    | exact n i =>
      have hg := alike_get h.alike n i
      simp only
      cases h1 : s.lib.get n i with
      | error e =>
        rw [h1] at hg
        cases h2 : t.lib.get n i with
        | error e' => rw [h2] at hg; exact hg
        | ok r => rw [h2] at hg; cases hg
      | ok r =>
        rw [h1] at hg
        cases h2 : t.lib.get n i with
        | error e' => rw [h2] at hg; cases hg
        | ok r' =>
          rw [h2] at hg
          obtain ⟨L, o⟩ := r
          obtain ⟨M, p⟩ := r'
          obtain ⟨ha, x, y, hs⟩ := hg
          simp only at ha x y hs ⊢
          have hsim := sim_lib h ha x y
          have hc : (s.mdepends.has n && decide (s.mdepends.get n ≠ some o)) = (t.mdepends.has n && decide (t.mdepends.get n ≠ some p)) := by
            rw [sim_has h n]
            rcases sim_get h n with ⟨g1, g2⟩ | ⟨a, b, g1, g2, g3⟩
            · simp [Dict.has, g2]
            · have := (g3.ext x y).iff ha hs
              simp only [g1, g2, ne_eq, Option.some.injEq, this]
          rw [hc]
          split
          · rfl
          · have hsp := sim_specify hsim n hs
            have hobj : L.obj o = M.obj p := hs.obj ha
            have e1 : ((({ s with lib := L } : CState).specify n o).lib.obj o) = (({ t with lib := M } : CState).specify n p).lib.obj p := hobj
            rw [e1]
            split
            · exact hrec _ _ _ _ hsp hs
            · exact hsp

theorem sim_foldl {rec rec' : CState → Nat → Except Err CState}
    (hrec : ∀ s t o p, Sim s t → Same s.lib t.lib o p → Agree Sim (rec s o) (rec' t p)) : ∀ (l : List Val) (s t : CState), Sim s t →
    Agree Sim (l.foldlM (entry rec) s) (l.foldlM (entry rec') t) := by
  intro l
  induction l with
  | nil => intro s t h; exact h
  | cons e l ih =>
    intro s t h
    simp only [List.foldlM_cons, bind, Except.bind]
    have := sim_entry hrec h e
    cases h1 : entry rec s e with
    | error x =>
      rw [h1] at this
      cases h2 : entry rec' t e with
      | error y => rw [h2] at this; exact this
      | ok t' => rw [h2] at this; cases this
    | ok s' =>
      rw [h1] at this
      cases h2 : entry rec' t e with
      | error y => rw [h2] at this; cases this
      | ok t' => rw [h2] at this; exact ih s' t' this

theorem sim_collectIn : ∀ (fuel : Nat) (s t : CState) (o p : Nat), Sim s t → Same s.lib t.lib o p →
    Agree Sim (collectIn fuel s o) (collectIn fuel t p) := by
  intro fuel
  induction fuel with
  | zero => intro s t o p _ _; rfl
  | succ fuel ih =>
    intro s t o p h hs
    unfold collectIn
    rw [hs.obj h.alike]
    cases (t.lib.obj p).opts.get "mdepends" with
    | none => rfl
    | some v =>
      simp only [bind, Except.bind]
      cases v.iter with
      | error e => rfl
      | ok l => exact sim_foldl ih l s t h

theorem sim_collectIf (fuel : Nat) {s t : CState} {o p : Nat} (h : Sim s t) (hs : Same s.lib t.lib o p) :
    Agree Sim (collectIf fuel s o) (collectIf fuel t p) := by
  unfold collectIf
  rw [hs.obj h.alike]
  split
  · exact sim_collectIn fuel s t o p h hs
  · exact h

theorem sim_loop (fuel : Nat) : ∀ (steps : Nat) (s t : CState), Sim s t →
    Agree Sim (collectLoop fuel steps s) (collectLoop fuel steps t) := by
  intro steps
  induction steps with
  | zero =>
    intro s t h
    unfold collectLoop
    rw [h.queue]
    cases t.queue with
    | nil => exact h
    | cons n q => rfl
  | succ steps ih =>
    intro s t h
    unfold collectLoop
    rw [h.queue]
    cases hq : t.queue with
    | nil => exact h
    | cons n q =>
      have hsq : Sim { s with queue := q } { t with queue := q } := ⟨h.alike, rfl, h.counter, h.mdepends⟩
      simp only [bind, Except.bind, sim_has h n]
      split
      · exact ih _ _ hsq
      · have hg := alike_getDefault h.alike n
        cases h1 : s.lib.getDefault n with
        | error e =>
          rw [h1] at hg
          cases h2 : t.lib.getDefault n with
          | error e' => rw [h2] at hg; exact hg
          | ok r => rw [h2] at hg; cases hg
        | ok r =>
          rw [h1] at hg
          cases h2 : t.lib.getDefault n with
          | error e' => rw [h2] at hg; cases hg
          | ok r' =>
            rw [h2] at hg
            obtain ⟨L, o⟩ := r
            obtain ⟨M, p⟩ := r'
            obtain ⟨ha, x, y, hs⟩ := hg
            simp only at ha x y hs ⊢
            have hif := sim_collectIf fuel (sim_specify (sim_lib hsq ha x y) n hs) (o := o) (p := p) hs
            cases c1 : collectIf fuel (({ s with lib := L, queue := q } : CState).specify n o) o with
            | error e =>
              rw [c1] at hif
              cases c2 : collectIf fuel (({ t with lib := M, queue := q } : CState).specify n p) p with
              | error e' => rw [c2] at hif; exact hif
              | ok t' => rw [c2] at hif; cases hif
            | ok s' =>
              rw [c1] at hif
              cases c2 : collectIf fuel (({ t with lib := M, queue := q } : CState).specify n p) p with
              | error e' => rw [c2] at hif; cases hif
              | ok t' => rw [c2] at hif; exact ih s' t' hif

theorem sim_result {s t : CState} (h : Sim s t) :
    ((s.mdepends.map (·.2)).mergeSort (fun a b => s.key a ≤ s.key b)).map s.lib.obj =
    ((t.mdepends.map (·.2)).mergeSort (fun a b => t.key a ≤ t.key b)).map t.lib.obj := by
  obtain ⟨Z, h1, h2, h3⟩ : ∃ Z : List (Nat × Nat), s.mdepends.map (·.2) = Z.map (·.1) ∧ t.mdepends.map (·.2) = Z.map (·.2) ∧
      ∀ z ∈ Z, Same s.lib t.lib z.1 z.2 ∧ s.key z.1 = t.key z.2 := by
    have h := h.mdepends
    generalize s.mdepends = d at h
    generalize t.mdepends = e at h
    induction h with
    | nil => exact ⟨[], rfl, rfl, by simp⟩
    | cons hxy _ ih =>
      rename_i x y xs ys _
      obtain ⟨Z, h1, h2, h3⟩ := ih
      refine ⟨(x.2, y.2) :: Z, by simp [h1], by simp [h2], ?_⟩
      intro z hz
      rcases List.mem_cons.1 hz with rfl | hz
      · exact hxy.2
      · exact h3 z hz
  have e1 : (Z.map (·.1)).mergeSort (fun a b => s.key a ≤ s.key b) = (Z.mergeSort (fun z w => s.key z.1 ≤ s.key w.1)).map (·.1) :=
    (List.map_mergeSort (f := fun z : Nat × Nat => z.1) (fun _ _ _ _ => rfl)).symm
  have e2 : (Z.map (·.2)).mergeSort (fun a b => t.key a ≤ t.key b) = (Z.mergeSort (fun z w => s.key z.1 ≤ s.key w.1)).map (·.2) :=
    (List.map_mergeSort (f := fun z : Nat × Nat => z.2) (fun a ha b hb => by rw [(h3 a ha).2, (h3 b hb).2])).symm
  rw [h1, h2, e1, e2, List.map_map, List.map_map]
  apply List.map_congr_left
  intro z hz
  exact (h3 z (List.mem_mergeSort.1 hz)).1.obj h.alike

theorem sim_collect (fuel steps : Nat) {L M : Lib} (ha : Alike L M) {o p : Nat} (hs : Same L M o p) (key key' : Nat → Nat) :
    Agree (fun a b => Alike a.1 b.1 ∧ a.1.obj o = b.1.obj p ∧ a.2.map a.1.obj = b.2.map b.1.obj) (collect fuel steps L key o) (collect fuel steps M key' p) := by
  have h0 : Sim ⟨L, [], [], key, 0⟩ ⟨M, [], [], key', 0⟩ := ⟨ha, rfl, rfl, .nil⟩
  have h1 := sim_collectIf fuel h0 hs
  have lo : o < L.next := by obtain ⟨n, i, a, _⟩ := hs; exact (ha.wf1 n i o a).1
  have lp : p < M.next := by obtain ⟨n, i, _, b⟩ := hs; exact (ha.wf2 n i p b).1
  unfold collect
  simp only [bind, Except.bind, pure, Except.pure]
  cases c1 : collectIf fuel ⟨L, [], [], key, 0⟩ o with
  | error e =>
    rw [c1] at h1
    cases c2 : collectIf fuel ⟨M, [], [], key', 0⟩ p with
    | error e' => rw [c2] at h1; exact h1
    | ok t => rw [c2] at h1; cases h1
  | ok s =>
    rw [c1] at h1
    cases c2 : collectIf fuel ⟨M, [], [], key', 0⟩ p with
    | error e' => rw [c2] at h1; cases h1
    | ok t =>
      rw [c2] at h1
      have h2 := sim_loop fuel steps s t h1
      obtain ⟨k1, x1⟩ := collectIf_root ha.wf1 lo c1
      obtain ⟨k2, x2⟩ := collectIf_root ha.wf2 lp c2
      simp only
      cases d1 : collectLoop fuel steps s with
      | error e =>
        rw [d1] at h2
        cases d2 : collectLoop fuel steps t with
        | error e' => rw [d2] at h2; exact h2
        | ok t' => rw [d2] at h2; cases h2
      | ok s' =>
        rw [d1] at h2
        cases d2 : collectLoop fuel steps t with
        | error e' => rw [d2] at h2; cases h2
        | ok t' =>
          rw [d2] at h2
          have h2 : Sim s' t' := h2
          obtain ⟨_, y1, _⟩ := collectLoop_ok steps s s' k1 d1
          obtain ⟨_, y2, _⟩ := collectLoop_ok steps t t' k2 d2
          refine ⟨h2.alike, ?_, sim_result h2⟩
          exact ((hs.ext x1 x2).ext y1 y2).obj h2.alike

/-- **C146**: if no two calls of a script describe the same implementation or choose the default of the same module, the calls
may come in any order: for every module the same objects are collected, in the same order, or the collection ends in the same way,
whatever sort keys the module objects have from earlier collections. -/
theorem C146_order {ops ops' : List Op} (ho : Orderless ops) (hp : ops.Perm ops') :
    ∃ L M, Lib.empty.run ops = .ok L ∧ Lib.empty.run ops' = .ok M ∧
      ∀ (fuel steps : Nat) (key key' : Nat → Nat) (n : String) (i : Option String),
        modulesOf fuel steps key L n i = modulesOf fuel steps key' M n i := by
  obtain ⟨L, hL⟩ := C45_returns ops Lib.empty ho.pure
  obtain ⟨M, hM⟩ := C45_returns ops' Lib.empty (fun n i hm => ho.pure n i (hp.mem_iff.2 hm))
  refine ⟨L, M, hL, hM, ?_⟩
  intro fuel steps key key' n i
  have hg := alike_get (alike_run ho hp hL hM) n i
  unfold modulesOf
  simp only [bind, Except.bind, pure, Except.pure]
  cases h1 : L.get n i with
  | error e =>
    rw [h1] at hg
    cases h2 : M.get n i with
    | error e' => rw [h2] at hg; have hg : e = e' := hg; rw [hg]
    | ok r => rw [h2] at hg; cases hg
  | ok r =>
    rw [h1] at hg
    cases h2 : M.get n i with
    | error e' => rw [h2] at hg; cases hg
    | ok r' =>
      rw [h2] at hg
      have hc := sim_collect fuel steps hg.alike hg.same key key'
      simp only
      cases c1 : collect fuel steps r.1 key r.2 with
      | error e =>
        rw [c1] at hc
        cases c2 : collect fuel steps r'.1 key' r'.2 with
        | error e' => rw [c2] at hc; have hc : e = e' := hc; rw [hc]
        | ok x => rw [c2] at hc; cases hc
      | ok x =>
        rw [c1] at hc
        cases c2 : collect fuel steps r'.1 key' r'.2 with
        | error e' => rw [c2] at hc; cases hc
        | ok x' =>
          rw [c2] at hc
          simp only [hc.2.1, hc.2.2]

/-- The script of C46 may be read backwards: the calls do not get in each other's way, and the application still gets `log` (in the
implementation that it asks for), `fmt` and `net`. -/
theorem collDemo_orderless : Orderless collDemo where
  once := by
    simp only [collDemo, List.pairwise_cons, List.mem_cons, List.not_mem_nil, or_false, forall_eq_or_imp, forall_eq,
      List.Pairwise.nil, and_true, Op.registers]
    refine ⟨⟨?_, ?_, ?_, ?_⟩, ⟨?_, ?_, ?_⟩, ⟨?_, ?_⟩, ?_, ?_⟩ <;> intros <;> simp_all
    all_goals (rename_i h; rw [← h.1]; simp)
  choice := by
    simp only [collDemo, List.pairwise_cons, List.mem_cons, List.not_mem_nil, or_false, forall_eq_or_imp, forall_eq,
      List.Pairwise.nil, and_true, Op.chooses]
    refine ⟨⟨?_, ?_, ?_, ?_⟩, ⟨?_, ?_, ?_⟩, ⟨?_, ?_⟩, ?_, ?_⟩ <;> intros <;> simp_all
    all_goals (rename_i h; rw [← h]; decide)
  pure n i := by simp [collDemo]

example : Orderless collDemo ∧ collDemo.Perm collDemo.reverse ∧ ∃ M m res, Lib.empty.run collDemo.reverse = .ok M ∧
    modulesOf 10 10 (fun o => o) M "app" none = .ok (m, res) ∧ res.map (fun x => (x.name, x.impl)) =
      [("log", some "mem"), ("fmt", some "__default__"), ("net", some "__default__")] := by
  refine ⟨collDemo_orderless, (List.reverse_perm _).symm, ?_⟩
  obtain ⟨L, M, h1, h2, h3⟩ := C146_order collDemo_orderless (List.reverse_perm collDemo).symm
  have hL : L = collDemoLib := by
    have : Lib.empty.run collDemo = .ok collDemoLib := rfl
    rw [this] at h1; cases h1; rfl
  subst hL
  have hres := collDemo_result
  cases hc : collect 10 10 collDemoLib (fun _ => 0) 0 with
  | error e => rw [hc] at hres; cases hres
  | ok r =>
    obtain ⟨L', res⟩ := r
    rw [hc] at hres
    have hres : some res = some [3, 4, 1] := hres
    cases hres
    have hobj : ∀ o, o < collDemoLib.next → L'.obj o = collDemoLib.obj o := by
      obtain ⟨_, _, _, _, hx, _⟩ := collect_ok collDemo_declared.wf (by decide +kernel) hc
      exact hx.obj
    have hg : collDemoLib.get "app" none = .ok (collDemoLib, 0) := rfl
    refine ⟨M, L'.obj 0, [3, 4, 1].map L'.obj, h2, ?_, ?_⟩
    · rw [← h3 10 10 (fun _ => 0) (fun o => o) "app" none]
      unfold modulesOf
      simp only [bind, Except.bind, pure, Except.pure, hg, hc]
    · simp only [List.map_cons, List.map_nil]
      rw [hobj 3 (by decide +kernel), hobj 4 (by decide +kernel), hobj 1 (by decide +kernel)]
      rfl

end Licant.Modules
