/-
The order in which a module lists its dependencies (C147).
-/
import Verif.Modules.Order

set_option autoImplicit false

namespace Licant.Modules
open Licant.Py Relation

/-! ### specification -/

/-- the same options, but for the order of `mdepends` -/
structure Shuffled (kw kw' : Opts) : Prop where
  others : ∀ k, k ≠ "mdepends" → kw.get k = kw'.get k
  mdepends : kw.get "mdepends" = kw'.get "mdepends" ∨
    ∃ l l' : List Val, kw.get "mdepends" = some (.list l) ∧ kw'.get "mdepends" = some (.list l') ∧ l.Perm l'

/-- the same call, but for the order of `mdepends` -/
inductive ShuffledOp : Op → Op → Prop
  | module (script name : String) (impl : Option String) (default : Bool) (kw kw' : Opts) : Shuffled kw kw' →
      ShuffledOp (.module script name impl default kw) (.module script name impl default kw')
  | implementation (script name impl : String) (default : Bool) (kw kw' : Opts) : Shuffled kw kw' →
      ShuffledOp (.implementation script name impl default kw) (.implementation script name impl default kw')
  | choose (name impl : String) : ShuffledOp (.choose name impl) (.choose name impl)
  | lookup (name : String) (impl : Option String) : ShuffledOp (.lookup name impl) (.lookup name impl)

/-- no module is requested both by name and explicitly -/
def Unmixed (L : Lib) : Prop :=
  ∀ a b n i, a < L.next → b < L.next → Requests (L.obj a) (.plain n) → ¬ Requests (L.obj b) (.exact n i)

/-- the names and implementations of the collected modules -/
def picked (r : Lib × List Nat) : List (String × Option String) := r.2.map fun o => ((r.1.obj o).name, (r.1.obj o).impl)

/-! ### what holds -/

/-- the libraries differ at most in the order of the requests of their modules -/
structure Reordered (L M : Lib) : Prop where
  wf1 : L.Wf
  wf2 : M.Wf
  next : L.next = M.next
  find : ∀ n i, L.find n i = M.find n i
  default : ∀ n, L.defimpls.get n = M.defimpls.get n
  keys : L.modules.keys = M.modules.keys
  readable : ∀ o, o < L.next → (Readable (L.obj o) ↔ Readable (M.obj o))
  requests : ∀ o, o < L.next → ∀ d, Requests (L.obj o) d ↔ Requests (M.obj o) d

theorem Reordered.symm {L M : Lib} (h : Reordered L M) : Reordered M L :=
  ⟨h.wf2, h.wf1, h.next.symm, fun n i => (h.find n i).symm, fun n => (h.default n).symm, h.keys.symm,
    fun o ho => (h.readable o (h.next ▸ ho)).symm, fun o ho d => (h.requests o (h.next ▸ ho) d).symm⟩

/-- the same module in the two libraries after collecting -/
structure Twin (L M : Lib) (a b : Nat) : Prop where
  name : (L.obj a).name = (M.obj b).name
  impl : (L.obj a).impl = (M.obj b).impl
  requests : ∀ d, Requests (L.obj a) d ↔ Requests (M.obj b) d

theorem twin_gives {L M L' M' : Lib} (hR : Reordered L M) (x : LExt L L') (y : LExt M M') (w : L'.Wf) (w' : M'.Wf) {n : String}
    {i : Option String} {a b : Nat} (ha : Gives L' n i a) (hb : Gives M' n i b) : Twin L' M' a b := by
  obtain ⟨j, h1, h2⟩ := ha.finds w
  obtain ⟨j', h1', h2'⟩ := hb.finds w'
  have hj : j = j' := by
    have : L'.meant n i = M'.meant n i := by
      cases i with
      | some i => rfl
      | none => simp only [Lib.meant]; rw [x.defimpls, y.defimpls, hR.default n]
    rw [h1, h1'] at this
    exact Option.some.inj this
  subst hj
  obtain ⟨_, n1, i1⟩ := w n j a h2
  obtain ⟨_, n2, i2⟩ := w' n j b h2'
  refine ⟨by rw [n1, n2], by rw [i1, i2], ?_⟩
  cases hf : L.find n j with
  | some o =>
    have hf' := hf
    rw [hR.find n j] at hf'
    have e1 := x.find n j o hf
    have e2 := y.find n j o hf'
    rw [h2] at e1; rw [h2'] at e2
    obtain rfl : a = o := Option.some.inj e1
    obtain rfl : b = a := Option.some.inj e2
    obtain ⟨lo, _⟩ := hR.wf1 n j b hf
    obtain ⟨lo', _⟩ := hR.wf2 n j b hf'
    rw [x.obj b lo, y.obj b lo']
    exact hR.requests b lo
  | none =>
    have hf' := hf
    rw [hR.find n j] at hf'
    rcases x.new n j a h2 with h | ⟨_, h⟩
    · rw [hf] at h; cases h
    · rcases y.new n j b h2' with h' | ⟨_, h'⟩
      · rw [hf'] at h'; cases h'
      · intro d
        exact ⟨fun r => absurd r (not_requests h d), fun r => absurd r (not_requests h' d)⟩

/-- what is requested by an active module is requested by a module of the library from before -/
theorem requests_old {L : Lib} {root : Nat} {s : CState} (hw : L.Wf) (hroot : root < L.next) (x : LExt L s.lib) (hi : Inv root s)
    {m : Nat} (hm : s.Active root m) {d : MDep} (hd : Requests (s.lib.obj m) d) : m < L.next ∧ Requests (L.obj m) d := by
  have hlt : m < L.next := by
    rcases hm with rfl | ⟨n, hn⟩
    · exact hroot
    · have hf : ∃ i, Finds s.lib n i m := by
        rcases hi.origin n m hn with ⟨_, i, _, _, h⟩ | h
        · exact ⟨i, h⟩
        · exact ⟨_, h⟩
      obtain ⟨i, j, _, hj⟩ := hf
      rcases x.new n j m hj with h | ⟨_, h⟩
      · exact (hw n j m h).1
      · exact absurd hd (not_requests h d)
  exact ⟨hlt, by rw [← x.obj m hlt]; exact hd⟩

theorem picked_sub {L M L' M' : Lib} {root fuel steps fuel' steps' : Nat} {key key' : Nat → Nat} {res res' : List Nat}
    (hR : Reordered L M) (hU : Unmixed L) (hroot : root < L.next)
    (hc : collect fuel steps L key root = .ok (L', res)) (hc' : collect fuel' steps' M key' root = .ok (M', res')) :
    ∀ x ∈ picked (L', res), x ∈ picked (M', res') := by
  have hroot' : root < M.next := hR.next ▸ hroot
  obtain ⟨s, c, q, rfl, x, e⟩ := collect_ok hR.wf1 hroot hc
  obtain ⟨t, c', q', rfl, y, e'⟩ := collect_ok hR.wf2 hroot' hc'
  have hact : ∀ m, m = root ∨ m ∈ res ↔ s.Active root m := by
    intro m; rw [e, mem_res c.inv]; rfl
  have hact' : ∀ m, m = root ∨ m ∈ res' ↔ t.Active root m := by
    intro m; rw [e', mem_res c'.inv]; rfl
  have hU' : ∀ a b n i, s.Active root a → s.Active root b → Requests (s.lib.obj a) (.plain n) →
      ¬ Requests (s.lib.obj b) (.exact n i) := by
    intro a b n i ha hb h1 h2
    obtain ⟨l1, r1⟩ := requests_old hR.wf1 hroot x c.inv ha h1
    obtain ⟨l2, r2⟩ := requests_old hR.wf1 hroot x c.inv hb h2
    exact hU a b n i l1 l2 r1 r2
  have hU'' : ∀ a b n i, t.Active root a → t.Active root b → Requests (t.lib.obj a) (.plain n) →
      ¬ Requests (t.lib.obj b) (.exact n i) := by
    intro a b n i ha hb h1 h2
    obtain ⟨l1, r1⟩ := requests_old hR.wf2 hroot' y c'.inv ha h1
    obtain ⟨l2, r2⟩ := requests_old hR.wf2 hroot' y c'.inv hb h2
    rw [← hR.next] at l1 l2
    exact hU a b n i l1 l2 ((hR.requests a l1 _).2 r1) ((hR.requests b l2 _).2 r2)
  -- a module asked for by name that nobody asks for explicitly is the default one
  have hdef : ∀ (u : CState), Complete root u → (∀ a b n i, u.Active root a → u.Active root b → Requests (u.lib.obj a) (.plain n) →
      ¬ Requests (u.lib.obj b) (.exact n i)) → ∀ a n o, u.Active root a → Requests (u.lib.obj a) (.plain n) →
      u.mdepends.get n = some o → Gives u.lib n none o := by
    intro u cu hu a n o ha hr ho
    rcases cu.inv.origin n o ho with ⟨m, i, h1, h2, _⟩ | h
    · exact absurd h2 (hu a m n i ha h1 hr)
    · exact h.gives
  -- one request, made by two corresponding modules
  have step : ∀ a a' d b, s.Active root a → t.Active root a' → (∀ d, Requests (s.lib.obj a) d ↔ Requests (t.lib.obj a') d) →
      Requests (s.lib.obj a) d → s.mdepends.get d.name = some b → ∃ b', t.Has b' ∧ Twin s.lib t.lib b b' := by
    intro a a' d b ha ha' hT hd hnb
    have hd' := (hT d).1 hd
    have h1 := (c.handled a ha).2 d hd
    have h2 := (c'.handled a' ha').2 d hd'
    cases d with
    | plain n =>
      simp only [HandledD, q', List.not_mem_nil, or_false] at h2
      rw [← Dict.get_isSome_iff, Option.isSome_iff_exists] at h2
      obtain ⟨o, ho⟩ := h2
      exact ⟨o, ⟨n, ho⟩, twin_gives hR x y c.inv.wf c'.inv.wf (hdef s c hU' a n b ha hd hnb) (hdef t c' hU'' a' n o ha' hd' ho)⟩
    | exact n i =>
      obtain ⟨o, ho, hf⟩ := h1
      obtain ⟨o', ho', hf'⟩ := h2
      have : o = b := by
        have hnb : s.mdepends.get n = some b := hnb
        rw [ho] at hnb; exact Option.some.inj hnb
      subst this
      exact ⟨o', ⟨n, ho'⟩, twin_gives hR x y c.inv.wf c'.inv.wf hf.gives hf'.gives⟩
  have key : ∀ m, Conn root s m → s.Active root m ∧ ∃ m', t.Active root m' ∧
      ∀ d, Requests (s.lib.obj m) d ↔ Requests (t.lib.obj m') d := by
    intro m hm
    induction hm with
    | refl =>
      refine ⟨Or.inl rfl, root, Or.inl rfl, ?_⟩
      rw [x.obj root hroot, y.obj root hroot']; exact hR.requests root hroot
    | tail hab hbc ih =>
      rename_i a b
      obtain ⟨ha, a', ha', hT⟩ := ih
      obtain ⟨_, hb, d, hd, hn⟩ := hbc
      refine ⟨Or.inr hb, ?_⟩
      obtain ⟨nb, hnb⟩ := hb
      have hname := (c.inv.name nb b hnb).2
      rw [hname] at hn
      subst hn
      obtain ⟨b', hb', hT'⟩ := step a a' d b ha ha' hT hd hnb
      exact ⟨b', Or.inr hb', hT'.requests⟩
  intro p hp
  unfold picked at hp ⊢
  obtain ⟨o, ho, rfl⟩ := List.mem_map.1 hp
  have ho : o ∈ res := ho
  rw [e, mem_res c.inv] at ho
  obtain ⟨n, ho⟩ := ho
  obtain ⟨m, d, hm, hd, rfl⟩ := c.inv.asked n o ho
  obtain ⟨_, m', hm', hT⟩ := key m (c.inv.active_conn hm)
  obtain ⟨o', ho', hT'⟩ := step m m' d o hm hm' hT hd ho
  refine List.mem_map.2 ⟨o', ?_, ?_⟩
  · show o' ∈ res'
    rw [e', mem_res c'.inv]; exact ho'
  · show ((t.lib.obj o').name, (t.lib.obj o').impl) = ((s.lib.obj o).name, (s.lib.obj o).impl)
    rw [hT'.name, hT'.impl]

/-! ### the other order returns, too -/

/-- the implementation that an entry of `mdepends` asks for -/
def MDep.impl : MDep → Option String
  | .plain _ => none
  | .exact _ i => i

/-- a lookup of this implementation succeeds -/
def Avail (L : Lib) (n j : String) : Prop := L.find n j ≠ none ∨ (j = "__none__" ∧ L.modules.get n ≠ none)

theorem avail_get {L L' : Lib} {n j : String} (h : Avail L n j) (x : LExt L L') (w : L'.Wf) : ∃ L2 o, L'.getImpl n j = .ok (L2, o) ∧
    L2.Wf ∧ LExt L' L2 ∧ L2.find n j = some o := by
  have : ∃ r, L'.getImpl n j = .ok r := by
    rw [getImpl_eq]
    cases hf : L'.find n j with
    | some o => exact ⟨_, rfl⟩
    | none =>
      simp only
      rw [if_pos]
      · exact ⟨_, rfl⟩
      · rcases h with h | ⟨h1, h2⟩
        · cases h' : L.find n j with
          | none => exact absurd h' h
          | some o => rw [x.find n j o h'] at hf; cases hf
        · refine ⟨h1, ?_⟩
          intro hn
          rw [Dict.get_eq_none_iff, x.keys, ← Dict.get_eq_none_iff] at hn
          exact h2 hn
  obtain ⟨⟨L2, o⟩, hr⟩ := this
  obtain ⟨h1, h2, h3⟩ := getImpl_ok w hr
  exact ⟨L2, o, hr, h1, h2, h3⟩

/-- The choice `A` of an implementation for each name answers every request, of the root or of a chosen module. -/
structure Fits (M : Lib) (root : Nat) (A : String → Option String) : Prop where
  readable : ∀ o, (o = root ∨ ∃ n i, A n = some i ∧ M.find n i = some o) → Readable (M.obj o)
  requests : ∀ o, (o = root ∨ ∃ n i, A n = some i ∧ M.find n i = some o) → ∀ d, Requests (M.obj o) d →
    ∃ j, M.meant d.name d.impl = some j ∧ A d.name = some j ∧ Avail M d.name j

/-- a state within the choice -/
structure Within (M : Lib) (A : String → Option String) (s : CState) : Prop where
  wf : s.lib.Wf
  ext : LExt M s.lib
  deps : ∀ n o, s.mdepends.get n = some o → ∃ j, A n = some j ∧ s.lib.find n j = some o
  queue : ∀ n ∈ s.queue, ∃ j, M.defimpls.get n = some j ∧ A n = some j ∧ Avail M n j

/-- the root or a chosen module -/
def Live (root : Nat) (A : String → Option String) (s : CState) (o : Nat) : Prop :=
  o = root ∨ ∃ n j, A n = some j ∧ s.lib.find n j = some o

/-- it ends for lack of recursion depth or within the choice -/
def Fine (M : Lib) (A : String → Option String) (s : CState) : Except Err CState → Prop
  | .ok s' => Within M A s' ∧ LExt s.lib s'.lib
  | .error e => e = .recursion

theorem Live.ext {root : Nat} {A : String → Option String} {s s' : CState} {o : Nat} (x : LExt s.lib s'.lib) (h : Live root A s o) :
    Live root A s' o := by
  rcases h with h | ⟨n, j, h1, h2⟩
  · exact Or.inl h
  · exact Or.inr ⟨n, j, h1, x.find n j o h2⟩

section
variable {M : Lib} {root : Nat} {A : String → Option String}

/-- what a live module asks for is provided for -/
theorem live_requests (hw : M.Wf) (hF : Fits M root A) (hr : root < M.next) {s : CState} (hs : Within M A s) {o : Nat} (ho : Live root A s o) :
    Readable (s.lib.obj o) ∧ ∀ d, Requests (s.lib.obj o) d → ∃ j, M.meant d.name d.impl = some j ∧ A d.name = some j ∧ Avail M d.name j := by
  have old : ∀ o, o < M.next → (o = root ∨ ∃ n i, A n = some i ∧ M.find n i = some o) → Readable (s.lib.obj o) ∧
      ∀ d, Requests (s.lib.obj o) d → ∃ j, M.meant d.name d.impl = some j ∧ A d.name = some j ∧ Avail M d.name j := by
    intro o hlt ho
    rw [hs.ext.obj o hlt]
    exact ⟨hF.readable o ho, hF.requests o ho⟩
  rcases ho with rfl | ⟨n, j, h1, h2⟩
  · exact old _ hr (Or.inl rfl)
  · rcases hs.ext.new n j o h2 with h | ⟨_, h⟩
    · exact old o (hw n j o h).1 (Or.inr ⟨n, j, h1, h⟩)
    · exact ⟨readable_none h, fun d hd => absurd hd (not_requests h d)⟩

theorem specify_within {s : CState} (hs : Within M A s) {L : Lib} {n j : String} {o : Nat} (w : L.Wf) (x : LExt s.lib L) (hA : A n = some j)
    (hf : L.find n j = some o) : Within M A (({ s with lib := L } : CState).specify n o) := by
  refine ⟨w, hs.ext.trans hs.wf x, ?_, hs.queue⟩
  intro n' o' h
  have h : (s.mdepends.set n o).get n' = some o' := h
  rw [Dict.get_set] at h
  split at h
  · rename_i e
    cases h
    subst e
    exact ⟨j, hA, hf⟩
  · obtain ⟨j', h1, h2⟩ := hs.deps n' o' h
    exact ⟨j', h1, x.find n' j' o' h2⟩

theorem entry_fine {rec : CState → Nat → Except Err CState}
    (hrec : ∀ s o, Within M A s → Live root A s o → (s.lib.obj o).opts.has "mdepends" = true → Fine M A s (rec s o))
    {s : CState} (hs : Within M A s) {e : Val} {d : MDep} (hd : mdep e = .ok d)
    (hq : ∃ j, M.meant d.name d.impl = some j ∧ A d.name = some j ∧ Avail M d.name j) : Fine M A s (entry rec s e) := by
  obtain ⟨j, hj, hA, hav⟩ := hq
  unfold entry
  rw [hd]
  simp only [bind, Except.bind, pure, Except.pure, throw, throwThe, MonadExceptOf.throw]
  cases d with
  | plain n =>
    simp only
    split
    · exact ⟨hs, .refl _⟩
    · refine ⟨⟨hs.wf, hs.ext, hs.deps, ?_⟩, .refl _⟩
      intro n' hn'
      simp only [List.mem_append, List.mem_singleton] at hn'
      rcases hn' with hn' | rfl
      · exact hs.queue n' hn'
      · exact ⟨j, hj, hA, hav⟩
  | exact n i =>
    have hA : A n = some j := hA
    have hav : Avail M n j := hav
    obtain ⟨L2, o, h1, h2, h3, h4⟩ := avail_get hav hs.ext hs.wf
    have hget : s.lib.get n i = .ok (L2, o) := by
      cases i with
      | some i =>
        obtain rfl : i = j := Option.some.inj hj
        rw [get_some]; exact h1
      | none =>
        have hj : M.defimpls.get n = some j := hj
        rw [get_none, Lib.getDefault, hs.ext.defimpls, hj]
        exact h1
    simp only [hget]
    have hno : ¬ ((s.mdepends.has n && decide (s.mdepends.get n ≠ some o)) = true) := by
      intro hc
      rw [Bool.and_eq_true, decide_eq_true_eq] at hc
      obtain ⟨o', ho'⟩ := Option.isSome_iff_exists.1 hc.1
      obtain ⟨j', h5, h6⟩ := hs.deps n o' ho'
      have hA : A n = some j := hA
      rw [hA] at h5
      obtain rfl : j = j' := Option.some.inj h5
      rw [h3.find n j o' h6] at h4
      exact hc.2 (by rw [ho', Option.some.inj h4])
    rw [if_neg hno]
    have hw2 := specify_within hs h2 h3 hA h4
    split
    · rename_i hm
      have := hrec _ o hw2 (Or.inr ⟨n, j, hA, h4⟩) hm
      cases hr : rec (({ s with lib := L2 } : CState).specify n o) o with
      | error e' => rw [hr] at this; exact this
      | ok s' => rw [hr] at this; exact ⟨this.1, h3.trans h2 this.2⟩
    · exact ⟨hw2, h3⟩

theorem collectIn_fine (hw : M.Wf) (hF : Fits M root A) (hr : root < M.next) : ∀ (fuel : Nat) (s : CState) (o : Nat), Within M A s →
    Live root A s o → (s.lib.obj o).opts.has "mdepends" = true → Fine M A s (collectIn fuel s o) := by
  intro fuel
  induction fuel with
  | zero => intro s o _ _ _; rfl
  | succ fuel ih =>
    intro s o hs ho hm
    obtain ⟨hread, hreq⟩ := live_requests hw hF hr hs ho
    obtain ⟨v, hv⟩ := Option.isSome_iff_exists.1 hm
    obtain ⟨l, hl, hall⟩ := hread v hv
    have hall' : ∀ e ∈ l, ∃ d, mdep e = .ok d ∧ ∃ j, M.meant d.name d.impl = some j ∧ A d.name = some j ∧ Avail M d.name j := by
      intro e he
      obtain ⟨d, hd⟩ := hall e he
      exact ⟨d, hd, hreq d ⟨v, l, e, hv, hl, he, hd⟩⟩
    unfold collectIn
    rw [hv]
    simp only [hl, bind, Except.bind]
    clear hl hall hv hm ho hread hreq
    induction l generalizing s with
    | nil => exact ⟨hs, .refl _⟩
    | cons e l ihl =>
      simp only [List.foldlM_cons, bind, Except.bind]
      obtain ⟨d, hd, hq⟩ := hall' e (by simp)
      have h1 := entry_fine ih hs hd hq
      cases he : entry (collectIn fuel) s e with
      | error e' => rw [he] at h1; exact h1
      | ok s1 =>
        rw [he] at h1
        have h2 := ihl s1 h1.1 (fun e he => hall' e (List.mem_cons_of_mem _ he))
        simp only
        cases hf : l.foldlM (entry (collectIn fuel)) s1 with
        | error e' => rw [hf] at h2; exact h2
        | ok s2 => rw [hf] at h2; exact ⟨h2.1, h1.2.trans h1.1.wf h2.2⟩

theorem collectIf_fine (hw : M.Wf) (hF : Fits M root A) (hr : root < M.next) (fuel : Nat) {s : CState} {o : Nat} (hs : Within M A s)
    (ho : Live root A s o) : Fine M A s (collectIf fuel s o) := by
  unfold collectIf
  split
  · exact collectIn_fine hw hF hr fuel s o hs ho ‹_›
  · exact ⟨hs, .refl _⟩

theorem collectLoop_fine (hw : M.Wf) (hF : Fits M root A) (hr : root < M.next) (fuel : Nat) : ∀ (steps : Nat) (s : CState), Within M A s →
    ∀ e, collectLoop fuel steps s = .error e → e = .recursion ∨ e = .diverge := by
  intro steps
  induction steps with
  | zero =>
    intro s _ e h
    unfold collectLoop at h
    split at h
    · cases h
    · cases h; exact Or.inr rfl
  | succ steps ih =>
    intro s hs e h
    unfold collectLoop at h
    split at h
    · cases h
    · rename_i n q hq
      simp only [bind, Except.bind] at h
      have hs0 : Within M A { s with queue := q } :=
        ⟨hs.wf, hs.ext, hs.deps, fun x hx => hs.queue x (by rw [hq]; exact List.mem_cons_of_mem _ hx)⟩
      split at h
      · exact ih _ hs0 e h
      · obtain ⟨j, h1, h2, h3⟩ := hs.queue n (by rw [hq]; exact List.mem_cons_self)
        obtain ⟨L2, o, g1, g2, g3, g4⟩ := avail_get h3 hs.ext hs.wf
        have hget : s.lib.getDefault n = .ok (L2, o) := by
          rw [Lib.getDefault, hs.ext.defimpls, h1]; exact g1
        simp only [hget] at h
        have hs1 : Within M A (({ s with queue := q, lib := L2 } : CState).specify n o) := specify_within hs0 g2 g3 h2 g4
        have hf := collectIf_fine hw hF hr fuel hs1 (Or.inr ⟨n, j, h2, g4⟩)
        cases hc : collectIf fuel (({ s with queue := q, lib := L2 } : CState).specify n o) o with
        | error e' =>
          rw [hc] at h hf
          cases h
          exact Or.inl hf
        | ok s1 =>
          rw [hc] at h hf
          exact ih s1 hf.1 e h

theorem collect_fine (hw : M.Wf) (hF : Fits M root A) (hr : root < M.next) (fuel steps : Nat) (key : Nat → Nat) {e : Err}
    (h : collect fuel steps M key root = .error e) : e = .recursion ∨ e = .diverge := by
  unfold collect at h
  simp only [bind, Except.bind, pure, Except.pure] at h
  have h0 : Within M A ⟨M, [], [], key, 0⟩ := ⟨hw, .refl _, (by intro n o h; cases h), (by intro n h; cases h)⟩
  have hf := collectIf_fine hw hF hr fuel h0 (Or.inl rfl)
  cases hc : collectIf fuel ⟨M, [], [], key, 0⟩ root with
  | error e' => rw [hc] at h hf; cases h; exact Or.inl hf
  | ok s =>
    rw [hc] at h hf
    simp only at h
    split at h
    · rename_i e' he'
      cases h
      exact collectLoop_fine hw hF hr fuel steps s hf.1 _ he'
    · cases h

end

/-- a collection that returns, in a library in which no name is requested in both ways, makes a choice that fits the reordered library -/
theorem fits {L M L' : Lib} {root fuel steps : Nat} {key : Nat → Nat} {res : List Nat} (hR : Reordered L M) (hU : Unmixed L)
    (hroot : root < L.next) (hc : collect fuel steps L key root = .ok (L', res)) : ∃ A, Fits M root A := by
  obtain ⟨s, c, q, rfl, x, e⟩ := collect_ok hR.wf1 hroot hc
  let A : String → Option String := fun n => (s.mdepends.get n).bind fun o => (s.lib.obj o).impl
  -- the collected module of a name is registered under the chosen implementation
  have hreg : ∀ n o, s.mdepends.get n = some o → ∃ j, A n = some j ∧ s.lib.find n j = some o := by
    intro n o ho
    have hf : ∃ i, Finds s.lib n i o := by
      rcases c.inv.origin n o ho with ⟨_, i, _, _, h⟩ | h
      · exact ⟨i, h⟩
      · exact ⟨_, h⟩
    obtain ⟨i, j, _, hj⟩ := hf
    obtain ⟨_, _, himp⟩ := c.inv.wf n j o hj
    exact ⟨j, by show (s.mdepends.get n).bind _ = _; rw [ho]; exact himp, hj⟩
  have hactive : ∀ o, (o = root ∨ ∃ n i, A n = some i ∧ M.find n i = some o) → s.Active root o ∧ o < L.next := by
    rintro o (rfl | ⟨n, i, h1, h2⟩)
    · exact ⟨Or.inl rfl, hroot⟩
    · cases ho : s.mdepends.get n with
      | none =>
        have h1 : (s.mdepends.get n).bind (fun o => (s.lib.obj o).impl) = some i := h1
        rw [ho] at h1; cases h1
      | some o1 =>
        obtain ⟨j, h3, h4⟩ := hreg n o1 ho
        rw [h1] at h3
        obtain rfl : i = j := Option.some.inj h3
        rw [← hR.find] at h2
        have h5 := x.find n i o h2
        rw [h4] at h5
        obtain rfl : o1 = o := Option.some.inj h5
        exact ⟨Or.inr ⟨n, ho⟩, (hR.wf1 n i o1 h2).1⟩
  refine ⟨A, ?_, ?_⟩
  · intro o ho
    obtain ⟨ha, hlt⟩ := hactive o ho
    rw [← hR.readable o hlt, ← x.obj o hlt]
    exact (c.handled o ha).1
  · intro o ho d hd
    obtain ⟨ha, hlt⟩ := hactive o ho
    rw [← hR.requests o hlt, ← x.obj o hlt] at hd
    have hh := (c.handled o ha).2 d hd
    -- what is found
    have hfound : ∃ o', s.mdepends.get d.name = some o' ∧ Finds s.lib d.name d.impl o' := by
      cases d with
      | plain n =>
        simp only [HandledD, q, List.not_mem_nil, or_false] at hh
        rw [← Dict.get_isSome_iff, Option.isSome_iff_exists] at hh
        obtain ⟨o', ho'⟩ := hh
        refine ⟨o', ho', ?_⟩
        rcases c.inv.origin n o' ho' with ⟨m, i, h1, h2, _⟩ | h
        · obtain ⟨l1, r1⟩ := requests_old hR.wf1 hroot x c.inv ha hd
          obtain ⟨l2, r2⟩ := requests_old hR.wf1 hroot x c.inv h1 h2
          exact absurd r2 (hU o m n i l1 l2 r1)
        · exact h
      | exact n i => exact hh
    obtain ⟨o', ho', j, hj, hf⟩ := hfound
    obtain ⟨j', hA, hf'⟩ := hreg d.name o' ho'
    have : j = j' := by
      have h1 := (c.inv.wf _ _ _ hf).2.2
      have h2 := (c.inv.wf _ _ _ hf').2.2
      rw [h1] at h2
      exact Option.some.inj h2
    subst this
    refine ⟨j, ?_, hA, ?_⟩
    · revert hj
      cases d.impl with
      | some i => exact id
      | none =>
        simp only [Lib.meant]
        rw [x.defimpls, hR.default]
        exact id
    · rcases x.made _ _ _ hf with h | h
      · left
        rw [← hR.find, h]
        simp
      · right
        refine ⟨h, ?_⟩
        have hk : s.lib.modules.get d.name ≠ none := by
          intro hn
          simp only [Lib.find, hn, Option.bind] at hf
          cases hf
        intro hn
        rw [Dict.get_eq_none_iff, ← hR.keys, ← x.keys, ← Dict.get_eq_none_iff] at hn
        exact hk hn

theorem reordered_acyclic {L M : Lib} (hR : Reordered L M) (h : ¬ ∃ m, TransGen (Explicit L) m m) : ¬ ∃ m, TransGen (Explicit M) m m := by
  have step : ∀ a b, a < M.next → Explicit M a b → Explicit L a b := by
    rintro a b ha ⟨n, i, hr, hg⟩
    refine ⟨n, i, (hR.requests a (hR.next ▸ ha) _).2 hr, ?_⟩
    obtain ⟨j, h1, h2⟩ := hg.finds hR.wf2
    refine Finds.gives ⟨j, ?_, by rw [hR.find]; exact h2⟩
    cases i with
    | some i => exact h1
    | none => simp only [Lib.meant] at h1 ⊢; rw [hR.default]; exact h1
  rintro ⟨m, hm⟩
  have hlt : m < M.next := by
    rcases TransGen.tail'_iff.1 hm with ⟨a, _, ha⟩
    exact ha.lt hR.wf2
  have key : ∀ b, TransGen (Explicit M) m b → TransGen (Explicit L) m b ∧ b < M.next := by
    intro b hb
    induction hb with
    | single h => exact ⟨.single (step _ _ hlt h), h.lt hR.wf2⟩
    | tail _ h ih => exact ⟨.tail ih.1 (step _ _ ih.2 h), h.lt hR.wf2⟩
  exact h ⟨m, (key m hm).1⟩

/-! ### scripts -/

theorem Shuffled.refl (kw : Opts) : Shuffled kw kw := ⟨fun _ _ => rfl, Or.inl rfl⟩

/-- the same libraries but for the order of `mdepends` -/
structure SameBut (L M : Lib) : Prop where
  modules : L.modules = M.modules
  defimpls : L.defimpls = M.defimpls
  next : L.next = M.next
  opts : ∀ o, Shuffled (L.obj o).opts (M.obj o).opts

theorem shuffled_new {kw kw' : Opts} (h : Shuffled kw kw') (n : String) (script dir : Val) :
    Shuffled (newMod n script dir kw).opts (newMod n script dir kw').opts := by
  have hget : ∀ (d : Opts) k, (newMod n script dir d).opts.get k =
      if "__dir__" = k then some dir else if "__script__" = k then some script else d.get k := by
    intro d k
    simp only [newMod]
    rw [Dict.get_set, Dict.get_set]
  refine ⟨?_, ?_⟩
  · intro k hk
    rw [hget, hget, h.others k hk]
  · rw [hget, hget, if_neg (by decide), if_neg (by decide), if_neg (by decide), if_neg (by decide)]
    exact h.mdepends

theorem sameBut_register {L M : Lib} (h : SameBut L M) {kw kw' : Opts} (hk : Shuffled kw kw') (n i : String) (script dir : Val) :
    SameBut (L.registerImpl (newMod n script dir kw) i) (M.registerImpl (newMod n script dir kw') i) := by
  refine ⟨?_, h.defimpls, by simp only [Lib.registerImpl]; rw [h.next], ?_⟩
  · simp only [Lib.registerImpl, newMod]; rw [h.modules, h.next]
  · intro o
    simp only [Lib.registerImpl]
    rw [h.next]
    split
    · exact shuffled_new hk n script dir
    · exact h.opts o

theorem sameBut_implementation {L M L1 : Lib} (h : SameBut L M) {kw kw' : Opts} (hk : Shuffled kw kw') {script n i : String} {default : Bool}
    (h1 : L.implementation script n i default kw = .ok L1) : ∃ M1, M.implementation script n i default kw' = .ok M1 ∧ SameBut L1 M1 := by
  have hr := sameBut_register h hk n i (.str script) (.str (String.ofList (Path.dirname script.toList)))
  unfold Lib.implementation at h1 ⊢
  cases default with
  | false => cases h1; exact ⟨_, rfl, hr⟩
  | true =>
    simp only [if_true, Lib.setDefimpl, Bool.not_true, Bool.and_false, Bool.false_eq_true, if_false] at h1 ⊢
    cases h1
    exact ⟨_, rfl, hr.modules, by simp only; rw [hr.defimpls], hr.next, hr.opts⟩

theorem sameBut_getImpl {L M L1 : Lib} (h : SameBut L M) {n i : String} {o : Nat} (h1 : L.getImpl n i = .ok (L1, o)) :
    ∃ M1, M.getImpl n i = .ok (M1, o) ∧ SameBut L1 M1 := by
  unfold Lib.getImpl at h1 ⊢
  rw [← h.modules]
  split at h1
  · cases h1
  · split at h1
    · cases h1; exact ⟨M, rfl, h⟩
    · split at h1
      · cases h1
        rw [if_pos ‹_›, h.next]
        exact ⟨_, rfl, sameBut_register h (.refl _) _ _ _ _⟩
      · cases h1

theorem sameBut_get {L M L1 : Lib} (h : SameBut L M) {n : String} {i : Option String} {o : Nat} (h1 : L.get n i = .ok (L1, o)) :
    ∃ M1, M.get n i = .ok (M1, o) ∧ SameBut L1 M1 := by
  cases i with
  | some i => rw [get_some] at h1 ⊢; exact sameBut_getImpl h h1
  | none =>
    rw [get_none] at h1 ⊢
    unfold Lib.getDefault at h1 ⊢
    rw [← h.defimpls]
    split at h1
    · cases h1
    · exact sameBut_getImpl h h1

theorem sameBut_run : ∀ {ops ops' : List Op} {L M L1 : Lib}, List.Forall₂ ShuffledOp ops ops' → SameBut L M → L.run ops = .ok L1 →
    ∃ M1, M.run ops' = .ok M1 ∧ SameBut L1 M1 := by
  intro ops
  induction ops with
  | nil =>
    intro ops' L M L1 h hs h1
    cases h
    cases h1
    exact ⟨M, rfl, hs⟩
  | cons a ops ih =>
    intro ops' L M L1 h hs h1
    cases h with
    | cons hab h =>
      rename_i b ops'
      unfold Lib.run at h1 ⊢
      simp only [List.foldlM_cons, bind, Except.bind] at h1 ⊢
      split at h1
      · cases h1
      · rename_i L2 h2
        have : ∃ M2, M.op b = .ok M2 ∧ SameBut L2 M2 := by
          cases hab with
          | module script name impl default kw kw' hk =>
            cases impl with
            | some i => exact sameBut_implementation hs hk h2
            | none => exact sameBut_implementation (i := "__default__") (default := true) hs hk h2
          | implementation script name impl default kw kw' hk => exact sameBut_implementation hs hk h2
          | choose name impl =>
            simp only [Lib.op, Lib.setDefimpl, Bool.not_true, Bool.and_false, Bool.false_eq_true, if_false] at h2 ⊢
            cases h2
            exact ⟨_, rfl, hs.modules, by simp only; rw [hs.defimpls], hs.next, hs.opts⟩
          | lookup name impl =>
            simp only [Lib.op] at h2 ⊢
            cases hg : L.get name impl with
            | error e => rw [hg] at h2; cases h2
            | ok r =>
              rw [hg] at h2
              cases h2
              obtain ⟨M1, h3, h4⟩ := sameBut_get (o := r.2) (L1 := r.1) hs hg
              rw [h3]
              exact ⟨_, rfl, h4⟩
        obtain ⟨M2, h3, h4⟩ := this
        rw [h3]
        exact ih h h4 h1

theorem shuffled_iff {m m' : Mod} (h : Shuffled m.opts m'.opts) :
    (Readable m ↔ Readable m') ∧ ∀ d, Requests m d ↔ Requests m' d := by
  rcases h.mdepends with h | ⟨l, l', h1, h2, hp⟩
  · exact ⟨by unfold Readable; rw [h], fun d => by unfold Requests; rw [h]⟩
  · refine ⟨?_, ?_⟩
    · unfold Readable
      rw [h1, h2]
      constructor
      · intro hr v hv
        cases hv
        obtain ⟨l0, e, ha⟩ := hr _ rfl
        cases e
        exact ⟨l', rfl, fun e he => ha e (hp.mem_iff.2 he)⟩
      · intro hr v hv
        cases hv
        obtain ⟨l0, e, ha⟩ := hr _ rfl
        cases e
        exact ⟨l, rfl, fun e he => ha e (hp.mem_iff.1 he)⟩
    · intro d
      unfold Requests
      rw [h1, h2]
      constructor
      · rintro ⟨v, l0, e, ev, el, he, hd⟩
        cases ev; cases el
        exact ⟨_, _, e, rfl, rfl, hp.mem_iff.1 he, hd⟩
      · rintro ⟨v, l0, e, ev, el, he, hd⟩
        cases ev; cases el
        exact ⟨_, _, e, rfl, rfl, hp.mem_iff.2 he, hd⟩

theorem reordered {ops ops' : List Op} {L : Lib} (hS : List.Forall₂ ShuffledOp ops ops') (hL : Lib.empty.run ops = .ok L) :
    ∃ M, Lib.empty.run ops' = .ok M ∧ Reordered L M := by
  obtain ⟨M, hM, h⟩ := sameBut_run hS (⟨rfl, rfl, rfl, fun _ => .refl _⟩ : SameBut Lib.empty Lib.empty) hL
  exact ⟨M, hM, Declared.wf ⟨ops, hL⟩, Declared.wf ⟨ops', hM⟩, h.next, fun n i => by unfold Lib.find; rw [h.modules],
    fun n => by rw [h.defimpls], by rw [h.modules], fun o _ => (shuffled_iff (h.opts o)).1, fun o _ => (shuffled_iff (h.opts o)).2⟩

theorem unmixed_symm {L M : Lib} (hR : Reordered L M) (hU : Unmixed L) : Unmixed M := by
  intro a b n i ha hb h1 h2
  rw [← hR.next] at ha hb
  exact hU a b n i ha hb ((hR.requests a ha _).2 h1) ((hR.requests b hb _).2 h2)

/-- **C147**, what holds.  Let two scripts differ in the order of the entries of `mdepends` lists only, and let no module be requested both by its
name and explicitly (as a pair).  If the modules for `root` can be collected in both cases, they are the same modules in the same implementations.
If they can be collected in one case, and no module explicitly requests itself through others, they can be collected in the other.
Missing: modules that are requested in both ways (`C147_violated`). -/
theorem C147_partial {ops ops' : List Op} {L : Lib} (hS : List.Forall₂ ShuffledOp ops ops') (hL : Lib.empty.run ops = .ok L) (hU : Unmixed L) :
    ∃ M, Lib.empty.run ops' = .ok M ∧
      ∀ (root fuel steps : Nat) (key : Nat → Nat) (r : Lib × List Nat), root < L.next → collect fuel steps L key root = .ok r →
        (∀ fuel' steps' key' r', collect fuel' steps' M key' root = .ok r' → ∀ x, x ∈ picked r ↔ x ∈ picked r') ∧
        ((¬ ∃ m, TransGen (Explicit L) m m) → ∀ fuel' key', M.next < fuel' → ∃ S, ∀ steps', S ≤ steps' →
          ∃ r', collect fuel' steps' M key' root = .ok r') := by
  obtain ⟨M, hM, hR⟩ := reordered hS hL
  refine ⟨M, hM, ?_⟩
  intro root fuel steps key r hroot hc
  have hroot' : root < M.next := hR.next ▸ hroot
  refine ⟨?_, ?_⟩
  · intro fuel' steps' key' r' hc' x
    exact ⟨picked_sub hR hU hroot hc hc' x, picked_sub hR.symm (unmixed_symm hR hU) hroot' hc' hc x⟩
  · intro hac fuel' key' hf
    obtain ⟨A, hA⟩ := fits hR hU hroot hc
    obtain ⟨S, hS⟩ := C49_partial ⟨ops', hM⟩ hroot' key' (reordered_acyclic hR hac) fuel' hf
    refine ⟨S, fun steps' hle => ?_⟩
    obtain ⟨h1, h2⟩ := hS steps' hle
    cases hr : collect fuel' steps' M key' root with
    | ok r' => exact ⟨r', rfl⟩
    | error e =>
      rcases collect_fine hR.wf2 hA hroot' fuel' steps' key' hr with rfl | rfl
      · exact absurd hr h2
      · exact absurd hr h1

/-! ### what does not hold -/

/-- The application asks for `x` and `y` by name, in the order `l`.  `x` chooses the special `y`, `y` chooses the special `x`. -/
def mixOps (l : List Val) : List Op :=
  [.module "/p/a.py" "app" none false [("mdepends", .list l)],
   .module "/p/a.py" "x" none false [("mdepends", .list [.tuple [.str "y", .str "special"]])],
   .module "/p/a.py" "y" none false [("mdepends", .list [.tuple [.str "x", .str "special"]])],
   .implementation "/p/a.py" "x" "special" false [],
   .implementation "/p/a.py" "y" "special" false []]

/-- The application asks for `p` and `q` by name, in the order `l`.  `p` asks for `x` by name; `q` asks for `r`, which chooses the special `x`. -/
def lateOps (l : List Val) : List Op :=
  [.module "/p/a.py" "app" none false [("mdepends", .list l)],
   .module "/p/a.py" "p" none false [("mdepends", .list [.str "x"])],
   .module "/p/a.py" "q" none false [("mdepends", .list [.str "r"])],
   .module "/p/a.py" "r" none false [("mdepends", .list [.tuple [.str "x", .str "special"]])],
   .module "/p/a.py" "x" none false [],
   .implementation "/p/a.py" "x" "special" false []]

theorem shuffled_list {l l' : List Val} (h : l.Perm l') : Shuffled [("mdepends", .list l)] [("mdepends", .list l')] := by
  refine ⟨?_, Or.inr ⟨l, l', rfl, rfl, h⟩⟩
  intro k hk
  simp [Dict.get, hk.symm]

theorem mixOps_shuffled {l l' : List Val} (h : l.Perm l') : List.Forall₂ ShuffledOp (mixOps l) (mixOps l') :=
  .cons (.module _ _ _ _ _ _ (shuffled_list h)) <| .cons (.module _ _ _ _ _ _ (.refl _)) <| .cons (.module _ _ _ _ _ _ (.refl _)) <|
    .cons (.implementation _ _ _ _ _ _ (.refl _)) <| .cons (.implementation _ _ _ _ _ _ (.refl _)) .nil

theorem lateOps_shuffled {l l' : List Val} (h : l.Perm l') : List.Forall₂ ShuffledOp (lateOps l) (lateOps l') :=
  .cons (.module _ _ _ _ _ _ (shuffled_list h)) <| .cons (.module _ _ _ _ _ _ (.refl _)) <| .cons (.module _ _ _ _ _ _ (.refl _)) <|
    .cons (.module _ _ _ _ _ _ (.refl _)) <| .cons (.module _ _ _ _ _ _ (.refl _)) <| .cons (.implementation _ _ _ _ _ _ (.refl _)) .nil

theorem mem_picked {L : Lib} {l : List Nat} {le : Nat → Nat → Bool} {x : String × Option String} :
    x ∈ picked (L, l.mergeSort le) ↔ x ∈ l.map fun o => ((L.obj o).name, (L.obj o).impl) := by
  unfold picked
  simp only [List.mem_map, List.mem_mergeSort]

/-- **C147 violated**.  The order of the entries of one `mdepends` list can decide
* which implementations are collected: `x` in its default and `y` in its special implementation, or the other way round;
* whether the modules can be collected at all. -/
theorem C147_violated :
    (∃ ops ops' L M r r', List.Forall₂ ShuffledOp ops ops' ∧ Lib.empty.run ops = .ok L ∧ Lib.empty.run ops' = .ok M ∧
      collect 10 10 L (fun _ => 0) 0 = .ok r ∧ collect 10 10 M (fun _ => 0) 0 = .ok r' ∧
      (∀ x, x ∈ picked r ↔ x = ("x", some "__default__") ∨ x = ("y", some "special")) ∧
      (∀ x, x ∈ picked r' ↔ x = ("y", some "__default__") ∨ x = ("x", some "special"))) ∧
    (∃ ops ops' L M r, List.Forall₂ ShuffledOp ops ops' ∧ Lib.empty.run ops = .ok L ∧ Lib.empty.run ops' = .ok M ∧
      collect 10 10 L (fun _ => 0) 0 = .ok r ∧ ("x", some "special") ∈ picked r ∧
      collect 10 10 M (fun _ => 0) 0 = .error .exit) := by
  refine ⟨⟨mixOps [.str "x", .str "y"], mixOps [.str "y", .str "x"], _, _, _, _, mixOps_shuffled (List.Perm.swap _ _ []), rfl, rfl, rfl, rfl, ?_, ?_⟩,
    ⟨lateOps [.str "q", .str "p"], lateOps [.str "p", .str "q"], _, _, _, lateOps_shuffled (List.Perm.swap _ _ []), rfl, rfl, rfl, ?_, rfl⟩⟩
  · intro x
    rw [mem_picked]
    show x ∈ [("x", some "__default__"), ("y", some "special")] ↔ _
    simp
  · intro x
    rw [mem_picked]
    show x ∈ [("y", some "__default__"), ("x", some "special")] ↔ _
    simp
  · rw [mem_picked]
    decide +kernel

/-! ### example -/

/-- the requests of a module -/
def reqList (m : Mod) : List MDep :=
  match m.opts.get "mdepends" with
  | none => []
  | some v => match v.iter with
    | .error _ => []
    | .ok l => l.filterMap fun e => (mdep e).toOption

theorem mem_reqList {m : Mod} {d : MDep} (h : Requests m d) : d ∈ reqList m := by
  obtain ⟨v, l, e, hv, hl, he, hd⟩ := h
  unfold reqList
  simp only [hv, hl]
  exact List.mem_filterMap.2 ⟨e, he, by rw [hd]; rfl⟩

def isPlain : MDep → Bool
  | .plain _ => true
  | .exact _ _ => false

/-- `net` and `sys` are asked for by name, `log` and `fmt` explicitly, `fmt` twice -/
def listOps (l : List Val) : List Op :=
  [.module "/p/a.py" "app" none false [("mdepends", .list l)],
   .module "/p/a.py" "net" none false [("mdepends", .list [.str "sys"])],
   .implementation "/p/a.py" "log" "mem" false [("mdepends", .list [.tuple [.str "fmt", .none]])],
   .module "/p/a.py" "fmt" none false [],
   .module "/p/a.py" "sys" none false []]

def listEntries : List Val := [.str "net", .tuple [.str "log", .str "mem"], .tuple [.str "fmt", .none]]

def listLib : Lib := match Lib.empty.run (listOps listEntries) with | .ok L => L | .error _ => Lib.empty

theorem listLib_run : Lib.empty.run (listOps listEntries) = .ok listLib := rfl

theorem listLib_unmixed : Unmixed listLib := by
  intro a b n i ha hb h1 h2
  have key : ∀ a < 5, ∀ b < 5, ∀ d ∈ reqList (listLib.obj a), ∀ d' ∈ reqList (listLib.obj b),
      d.name = d'.name → isPlain d = true → isPlain d' = true := by decide +kernel
  have := key a ha b hb _ (mem_reqList h1) _ (mem_reqList h2) rfl rfl
  cases this

theorem listLib_acyclic : ¬ ∃ m, TransGen (Explicit listLib) m m := by
  have step : ∀ a b, Explicit listLib a b → a < 5 → a < b := by
    rintro a b ⟨n, i, hr, hg⟩ ha
    have key : ∀ a < 5, ∀ d ∈ reqList (listLib.obj a), isPlain d = false →
        ((listLib.get d.name d.impl).toOption.map fun r => decide (a < r.2)) = some true := by decide +kernel
    have := key a ha _ (mem_reqList hr) rfl
    unfold Gives at hg
    simp only [MDep.name, MDep.impl, hg] at this
    have := Option.some.inj this
    exact of_decide_eq_true this
  have hlt : ∀ a b, Explicit listLib a b → b < 5 := fun a b h => h.lt (Declared.wf ⟨_, listLib_run⟩)
  rintro ⟨m, hm⟩
  have hm5 : m < 5 := by
    obtain ⟨a, _, ha⟩ := TransGen.tail'_iff.1 hm
    exact hlt _ _ ha
  have key : ∀ b, TransGen (Explicit listLib) m b → m < b ∧ b < 5 := by
    intro b h
    induction h with
    | single h => exact ⟨step _ _ h hm5, hlt _ _ h⟩
    | tail _ h ih => exact ⟨lt_trans ih.1 (step _ _ h ih.2), hlt _ _ h⟩
  exact lt_irrefl _ (key m hm).1

/-- all hypotheses of `C147_partial` hold; the modules of the reversed list can be collected as well, and are the same four -/
example : ∃ M r', Lib.empty.run (listOps listEntries.reverse) = .ok M ∧ (∃ steps, collect 10 steps M (fun _ => 0) 0 = .ok r') ∧
    ∀ x, x ∈ picked r' ↔ x ∈ [("net", some "__default__"), ("log", some "mem"), ("fmt", some "__default__"), ("sys", some "__default__")] := by
  have hS : List.Forall₂ ShuffledOp (listOps listEntries) (listOps listEntries.reverse) :=
    .cons (.module _ _ _ _ _ _ (shuffled_list (List.reverse_perm _).symm)) <| .cons (.module _ _ _ _ _ _ (.refl _)) <|
      .cons (.implementation _ _ _ _ _ _ (.refl _)) <| .cons (.module _ _ _ _ _ _ (.refl _)) <| .cons (.module _ _ _ _ _ _ (.refl _)) .nil
  obtain ⟨M, hM, h⟩ := C147_partial hS listLib_run listLib_unmixed
  have hnext : M.next = 5 := by cases hM; rfl
  obtain ⟨h1, h2⟩ := h 0 10 10 (fun _ => 0) _ (by decide +kernel) rfl
  obtain ⟨S, hS⟩ := h2 listLib_acyclic 10 (fun _ => 0) (by omega)
  obtain ⟨r', hr'⟩ := hS S (le_refl _)
  refine ⟨M, r', hM, ⟨S, hr'⟩, fun x => ?_⟩
  rw [← h1 10 S _ r' hr' x, mem_picked]
  show x ∈ [("log", some "mem"), ("fmt", some "__default__"), ("net", some "__default__"), ("sys", some "__default__")] ↔ _
  simp only [List.mem_cons, List.not_mem_nil, or_false]
  constructor
  · rintro (h | h | h | h) <;> simp [h]
  · rintro (h | h | h | h) <;> simp [h]

end Licant.Modules
