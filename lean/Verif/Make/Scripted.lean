/-
Model of build scripts that execute other scripts and describe targets (licant/scripter.py, licant/make.py): every executed
script becomes a source, and all that is proved of descriptions holds for what the scripts describe together: C157.
-/
import Verif.Make.Order

set_option autoImplicit false

namespace Licant.Make.Scripted
open Licant.Py Licant.Core Licant.Make

/-- The text of a script as far as its calls of licant are concerned: a call of make.py, `licant.execute(path)` (also made by
`licant.include`, licant/libs.py:38-89), `licant.execute_recursive`, which executes the files that it finds in this order (C106, C109),
or anything that depends on the targets registered so far. -/
inductive Script where
  | done
  | raises
  | call (c : CallD) (k : Script)
  | execute (path : String) (k : Script)
  | executeAll (found : List String) (k : Script)
  | look (k : World → Script)

/-- The state: the cores, the stack of scripts (licant/scripter.py:9, innermost first) and two ghosts: the scripts executed and
the calls of make.py made so far, by licant for the scripts or by the scripts. -/
structure St where
  world : World
  stack : List String
  ran : List String
  calls : List CallD

/-- a state and whether the execution returned -/
abbrev Res := St × Bool

def andThen (r : Res) (f : St → Res) : Res := if r.2 then f r.1 else r

/-- one call of a function of make.py.  Simplification: a call that ends the program registers nothing. -/
def St.make (E : Env) (lim : Nat) (c : CallD) (st : St) : Res :=
  match callD E lim st.world c with
  | .ok w => ({ st with world := w, calls := st.calls ++ [c] }, true)
  | .error _ => (st, false)

/-- licant/scripter.py:24, 27-31: the path of a script that the current script executes -/
def St.path (st : St) (path : String) : String :=
  String.ofList (Path.join (Path.dirname (st.stack.headD "").toList) path.toList)

/-- licant/scripter.py:36-37 -/
def execAll (exec : String → St → Res) : List String → St → Res
  | [], st => (st, true)
  | f :: fs, st => andThen (exec f st) (execAll exec fs)

/-- licant/scripter.py:18: a script is run; `exec` is `ScriptQueue.__execute` -/
def run (E : Env) (lim : Nat) (exec : String → St → Res) : Script → St → Res
  | .done, st => (st, true)
  | .raises, st => (st, false)
  | .call c k, st => andThen (st.make E lim c) (run E lim exec k)
  | .execute p k, st => andThen (exec (st.path p) st) (run E lim exec k)
  | .executeAll fs k, st => andThen (execAll exec fs st) (run E lim exec k)
  | .look k, st => run E lim exec (k st.world) st

/-- licant/scripter.py:12-21, `__execute`; the first number is the recursion limit.  A missing file and an exception in the script end
the program (licant/scripter.py:19-20). -/
def execute (E : Env) (lim : Nat) (files : String → Option Script) : Nat → String → St → Res
  | 0, _, st => (st, false)
  | n + 1, p, st =>
    andThen (st.make E lim (.source p)) fun st =>
      match files p with
      | none => (st, false)
      | some s =>
        andThen (run E lim (execute E lim files n) s { st with stack := p :: st.stack, ran := st.ran ++ [p] }) fun st =>
          ({ st with stack := st.stack.tail }, true)

/-- licant/scripter.py:8-10 and the main script `s`, which Python runs under the path `argv0`.  `own` is another core.
Simplification: the main script becomes a source after the last of the targets that licant registers for itself, not before. -/
def mainScript (E : Env) (lim : Nat) (files : String → Option Script) (n : Nat) (own : MReg) (argv0 : String) (s : Script) : Res :=
  andThen (St.make E lim (.source argv0) ⟨⟨licantReg, own⟩, [argv0], [], []⟩) fun st =>
    run E lim (execute E lim files n) s { st with ran := [argv0] }

/-! ### proofs -/

variable {E : Env} {lim : Nat} {files : String → Option Script} {w0 : World}

/-- the calls recorded lead to the cores, and the scripts executed are among them -/
structure Inv (E : Env) (lim : Nat) (w0 : World) (st : St) : Prop where
  world : st.calls.foldlM (callD E lim) w0 = .ok st.world
  ran : ∀ p ∈ st.ran, CallD.source p ∈ st.calls

theorem Inv.make {st : St} (h : Inv E lim w0 st) (c : CallD) : Inv E lim w0 (st.make E lim c).1 := by
  unfold St.make
  cases hc : callD E lim st.world c with
  | error e => exact h
  | ok w =>
    refine ⟨?_, fun p hp => List.mem_append_left _ (h.ran p hp)⟩
    show (st.calls ++ [c]).foldlM (callD E lim) w0 = .ok w
    rw [List.foldlM_append, h.world]
    show (callD E lim st.world c >>= fun w => pure w) = _
    rw [hc]
    rfl

theorem inv_andThen {r : Res} (h : Inv E lim w0 r.1) {f : St → Res} (hf : Inv E lim w0 r.1 → r.2 = true → Inv E lim w0 (f r.1).1) :
    Inv E lim w0 (andThen r f).1 := by
  unfold andThen
  split
  · rename_i hr; exact hf h hr
  · exact h

theorem Inv.execAll {exec : String → St → Res} (he : ∀ p st, Inv E lim w0 st → Inv E lim w0 (exec p st).1) :
    ∀ (fs : List String) (st : St), Inv E lim w0 st → Inv E lim w0 (execAll exec fs st).1
  | [], _, h => h
  | f :: fs, st, h => inv_andThen (he f st h) fun h' _ => Inv.execAll he fs _ h'

theorem Inv.run {exec : String → St → Res} (he : ∀ p st, Inv E lim w0 st → Inv E lim w0 (exec p st).1) (s : Script) :
    ∀ st, Inv E lim w0 st → Inv E lim w0 (run E lim exec s st).1 := by
  induction s with
  | done => intro st h; exact h
  | raises => intro st h; exact h
  | call c k ih => intro st h; exact inv_andThen (h.make c) fun h' _ => ih _ h'
  | execute p k ih => intro st h; exact inv_andThen (he _ st h) fun h' _ => ih _ h'
  | executeAll fs k ih => intro st h; exact inv_andThen (Inv.execAll he fs st h) fun h' _ => ih _ h'
  | look k ih => intro st h; exact ih _ st h

theorem make_mem {st : St} {c : CallD} (h : (st.make E lim c).2 = true) : c ∈ (st.make E lim c).1.calls := by
  unfold St.make at h ⊢
  cases hc : callD E lim st.world c with
  | error e => rw [hc] at h; cases h
  | ok w => simp

theorem Inv.execute : ∀ (n : Nat) (p : String) (st : St), Inv E lim w0 st → Inv E lim w0 (execute E lim files n p st).1 := by
  intro n
  induction n with
  | zero => intro p st h; exact h
  | succ n ih =>
    intro p st h
    unfold Scripted.execute
    refine inv_andThen (h.make _) fun h' ht => ?_
    cases files p with
    | none => exact h'
    | some s =>
      have h1 : Inv E lim w0 { (st.make E lim (.source p)).1 with
          stack := p :: (st.make E lim (.source p)).1.stack
          ran := (st.make E lim (.source p)).1.ran ++ [p] } := ⟨h'.world, ?_⟩
      · exact inv_andThen (Inv.run ih s _ h1) fun h'' _ => ⟨h''.world, h''.ran⟩
      intro q hq
      rcases List.mem_append.1 hq with hq | hq
      · exact h'.ran q hq
      · rw [List.mem_singleton.1 hq]; exact make_mem ht

theorem main_inv (n : Nat) (own : MReg) (argv0 : String) (s : Script) :
    Inv E lim ⟨licantReg, own⟩ (mainScript E lim files n own argv0 s).1 := by
  have h0 : Inv E lim ⟨licantReg, own⟩ ⟨⟨licantReg, own⟩, [argv0], [], []⟩ := ⟨rfl, by simp⟩
  refine inv_andThen (h0.make _) fun h' ht => Inv.run (Inv.execute n) s _ ⟨h'.world, ?_⟩
  intro p hp
  rw [List.mem_singleton.1 hp]
  exact make_mem ht

/-- **C157**: executing scripts is making their calls one after the other, with a call of `source` for each script before its own. -/
theorem C157_calls {n : Nat} {own : MReg} {argv0 : String} {s : Script} {st : St} {b : Bool}
    (h : mainScript E lim files n own argv0 s = (st, b)) :
    st.calls.foldlM (callD E lim) ⟨licantReg, own⟩ = .ok st.world ∧ ∀ p ∈ st.ran, CallD.source p ∈ st.calls := by
  have hi := main_inv (E := E) (lim := lim) (files := files) n own argv0 s
  rw [h] at hi
  exact ⟨hi.world, hi.ran⟩

theorem follows_calls (hE : E.Sane) : ∀ {calls : List CallD} {w w' : World}, GoodD E w.dflt → ReasonableSeq E lim w calls →
    calls.foldlM (callD E lim) w = .ok w' → GoodD E w'.dflt ∧ Follows E w.dflt w'.dflt
  | [], w, w', hg, _, h => by cases h; exact ⟨hg, .refl⟩
  | cl :: calls, w, w', hg, hr, h => by
    simp only [List.foldlM_cons, bind, Except.bind] at h
    split at h
    · cases h
    · rename_i w1 h1
      obtain ⟨g1, f1⟩ := goodD_call hE hg (hr [] cl calls w rfl rfl) h1
      obtain ⟨g2, f2⟩ := follows_calls hE g1 (by
        intro pre cl' post w2 he h2
        refine hr (cl :: pre) cl' post w2 (by rw [he]; rfl) ?_
        simp only [List.foldlM_cons, bind, Except.bind, h1]
        exact h2) h
      exact ⟨g2, f1.trans f2 hg.wf g1.wf⟩

/-- `source` -/
theorem source_result (hE : E.Sane) {d d' : MReg} {p : String} (hg : GoodD E d)
    (hf : (∃ o, Resolves E.canon d.reg p o ∧ d.kind o ≠ .dir) ∨ FitsD E d p) (h : sourceG E lim d p [] = .ok d') :
    ∃ o, Resolves E.canon d'.reg p o ∧ d'.kind o ≠ .dir ∧
      (Resolves E.canon d.reg p o ∨ (∀ o', ¬ Resolves E.canon d.reg p o') ∧ d'.kind o = .source ∧ (d'.reg.obj o).tgt = E.canon p) := by
  unfold sourceG at h
  simp only at h
  split at h
  · rename_i hh
    cases h
    obtain ⟨o, ho⟩ := has_true.1 hh
    obtain ⟨_, _, _, h4, h5⟩ := has_extends hE.idem d p
    refine ⟨o, (h5 _ _).2 ho, ?_, Or.inl ho⟩
    rw [h4]
    rcases hf with ⟨o1, h1, h2⟩ | hf
    · rw [ho.unique h1]; exact h2
    · intro hk
      have h1 : d.reg.targets.get (d.reg.obj o).tgt = some o := by
        rcases ho with h | ⟨_, h⟩
        · exact hg.self _ _ h
        · exact hg.self _ _ h
      have h2 := hg.canonT o (hg.wf _ _ ho) (by rw [hk]; simp) (by rw [hk]; simp)
      rw [← h2, ← hg.canonEq hE.idem ho] at h1
      exact hf.new o (Or.inl h1)
  · rename_i hh
    have hno : ∀ o, ¬ Resolves E.canon d.reg p o := fun o ho => hh (has_true.2 ⟨o, ho⟩)
    obtain ⟨he, hf0, hf1⟩ := has_false (by simpa using hh)
    rw [he] at h
    split at h
    · cases h
    · rename_i d1 t ds h1
      cases h
      have hf' : FitsD E d p := by
        rcases hf with ⟨o, ho, _⟩ | hf
        · exact absurd ho (hno o)
        · exact hf
      obtain ⟨rfl, rfl, hk⟩ := fileInit_keeps hE _ _ _ _ _ _ _ _ hf'.nostar h1
      have hno1 : ∀ o, ¬ Resolves E.canon d1.reg p o := by
        intro o ho
        rcases hk.new _ _ ho with h | ⟨h2, h3, h4⟩
        · exact hno o h
        · rcases hk.fresh o h2 h3 with ⟨_, q, hq, e⟩ | ⟨_, r, hr, _⟩
          · rw [e] at h4
            exact (hf'.own q hq).1 h4.symm
          · cases hr
      have hn : d1.reg.targets.get p = none := by
        cases hx : d1.reg.targets.get p with
        | none => rfl
        | some o => exact absurd (Or.inl hx) (hno1 o)
      refine ⟨d1.reg.next, ?_, by simp [MReg.add], Or.inr ⟨hno, by simp [MReg.add], by simp [MReg.add, Core.add, makeObj]⟩⟩
      by_cases e : E.canon p = p
      · left; simp [MReg.add, Core.add, makeObj, e]
      · right; simp [MReg.add, Core.add, makeObj, e, Dict.get_set, hn]

/-- **C157**: whatever scripts execute which others, every executed script is a target of the default core, under each of its paths.  It
is a source, unless the scripts had described a target for the same file before it was executed: then it is still that target. -/
theorem C157_sources (hE : E.Sane) {n : Nat} {own : MReg} {argv0 : String} {s : Script} {st : St} {b : Bool}
    (h : mainScript E lim files n own argv0 s = (st, b)) (hr : ReasonableSeq E lim ⟨licantReg, own⟩ st.calls) {p : String}
    (hp : p ∈ st.ran) :
    ∃ before after w o, st.calls = before ++ CallD.source p :: after ∧ before.foldlM (callD E lim) ⟨licantReg, own⟩ = .ok w ∧
      Resolves E.canon st.world.dflt.reg p o ∧
      ((∀ o', ¬ Resolves E.canon w.dflt.reg p o') → st.world.dflt.kind o = .source ∧ (st.world.dflt.reg.obj o).tgt = E.canon p) ∧
      ∀ o', Resolves E.canon w.dflt.reg p o' → o' = o ∧ st.world.dflt.kind o = w.dflt.kind o ∧
        st.world.dflt.reg.obj o = w.dflt.reg.obj o := by
  have hi := main_inv (E := E) (lim := lim) (files := files) n own argv0 s
  rw [h] at hi
  obtain ⟨before, after, hc⟩ := List.append_of_mem (hi.ran p hp)
  have hw := hi.world
  rw [hc, List.foldlM_append] at hw
  cases h1 : before.foldlM (callD E lim) ⟨licantReg, own⟩ with
  | error e => rw [h1] at hw; cases hw
  | ok w =>
    rw [h1] at hw
    change (CallD.source p :: after).foldlM (callD E lim) w = _ at hw
    have hr1 : ReasonableSeq E lim ⟨licantReg, own⟩ before := by
      intro pre cl post w' he hf
      exact hr pre cl (post ++ .source p :: after) w' (by rw [hc, he]; simp) hf
    have hr2 : ReasonableD E lim w.dflt (.source p) := hr before _ after w hc h1
    obtain ⟨g1, _⟩ := follows_calls hE (w := ⟨licantReg, own⟩) goodD_licantReg hr1 h1
    simp only [List.foldlM_cons, bind, Except.bind] at hw
    split at hw
    · cases hw
    · rename_i w2 h2
      obtain ⟨g2, f2⟩ := goodD_call hE g1 hr2 h2
      have hr3 : ReasonableSeq E lim w2 after := by
        intro pre cl post w' he hf
        refine hr (before ++ .source p :: pre) cl post w' (by rw [hc, he]; simp) ?_
        rw [List.foldlM_append, h1]
        show (CallD.source p :: pre).foldlM (callD E lim) w = _
        simp only [List.foldlM_cons, bind, Except.bind, h2]
        exact hf
      obtain ⟨_, f3⟩ := follows_calls hE g2 hr3 hw
      have hs : ∃ d, sourceG E lim w.dflt p [] = .ok d ∧ w2.dflt = d := by
        simp only [callD, Except.map] at h2
        split at h2
        · cases h2
        · rename_i d hd; cases h2; exact ⟨d, hd, rfl⟩
      obtain ⟨d, hd, rfl⟩ := hs
      obtain ⟨o, k1, k2, k3⟩ := source_result hE g1 hr2 hd
      obtain ⟨o', k4, k5⟩ := f3.2.2 p o k1
      have ho : o' = o := by
        rcases k5 with h | ⟨h, _⟩
        · exact h
        · exact absurd h k2
      subst ho
      obtain ⟨k6, k7⟩ := f3.2.1 o' (g2.wf _ _ k1)
      refine ⟨before, after, w, o', hc, h1, k4, ?_, ?_⟩
      · intro hno
        rcases k3 with k3 | ⟨_, k8, k9⟩
        · exact absurd k3 (hno _)
        · rw [k6, k7]; exact ⟨k8, k9⟩
      · intro o'' ho''
        rcases k3 with k3 | ⟨k3, _⟩
        · have := ho''.unique k3
          subst this
          obtain ⟨m1, m2⟩ := f2.2.1 o'' (g1.wf _ _ ho'')
          exact ⟨rfl, k7.trans m2, k6.trans m1⟩
        · exact absurd ho'' (k3 _)

/-- **C157**, consequences for builds: what the scripts describe together satisfies the assumptions of the theorems about builds. -/
theorem C157_builds {α : Type} (hE : E.Sane) {n : Nat} {own : MReg} {argv0 : String} {s : Script} {st : St} {b : Bool}
    (h : mainScript E lim files n own argv0 s = (st, b)) (hr : ReasonableSeq E lim ⟨licantReg, own⟩ st.calls) (P : Proj α)
    (hreg : P.reg = st.world.dflt.reg) (hkind : P.kind = st.world.dflt.kind) (hpar : ∀ p q, q ∈ P.parents p → IsAnc q p) :
    Sound P E.canon ∧ ∀ p ∈ st.ran, AllRegistered E.canon P.reg p := by
  have hi := main_inv (E := E) (lim := lim) (files := files) n own argv0 s
  rw [h] at hi
  obtain ⟨h1, h2⟩ := C88_wellformed hE (ReasonableSeq.described (.new own) hr hi.world) P hreg hkind hpar
  refine ⟨h1, fun p hp => ?_⟩
  obtain ⟨_, _, _, o, _, _, ho, _⟩ := C157_sources hE h hr hp
  exact h2 p o (hreg ▸ ho)

/-! ### an example: the main script `/s/m.py` executes `x.py`, which describes `/s/t`, made from the script itself -/

def demoFiles (p : String) : Option Script :=
  if p = "/s/x.py" then some (.call (.makefile "/s/t" ["/s/x.py"]) .done) else none

def demoMain : Script := .execute "x.py" .done

def demoCalls : List CallD := [.source "/s/m.py", .source "/s/x.py", .makefile "/s/t" ["/s/x.py"]]

def demoReg1 : MReg := licantReg.add (makeObj "/s/m.py" []) .source

def demoReg2 : MReg := demoReg1.add (makeObj "/s/x.py" []) .source

def demoReg3 : MReg := demoReg2.add (makeObj "/s/t" ["/s/x.py"]) .file

theorem demo_run : mainScript srcEnv 50 demoFiles 10 noReg "/s/m.py" demoMain =
    (⟨⟨demoReg3, noReg⟩, ["/s/m.py"], ["/s/m.py", "/s/x.py"], demoCalls⟩, true) := rfl

/-- a file in `/s` that is not known yet fits -/
theorem demo_fits {c : MReg} {p : String} (hp : p ∈ ["/s/m.py", "/s/x.py", "/s/t"]) (hnew : c.reg.targets.get p = none)
    (hk : ∀ b, c.kind b = .source ∧ (c.reg.obj b).tgt ∈ ["/s/m.py", "/s/x.py", "/s/t"] ∨ c.kind b = .other)
    (hA : c.reg.targets.get "/s" = none ∧ c.reg.targets.get "/" = none) : FitsD srcEnv c p := by
  have hd : ∀ x ∈ ["/s/m.py", "/s/x.py", "/s/t"], x ∉ ["/s", "/"] := by decide
  refine fitsD_src ["/s", "/"] (by decide +kernel) (by clear hnew; revert p; decide +kernel) (hd p hp) (by clear hnew; revert p; decide +kernel)
    (by decide +kernel) hnew ?_ ?_ ?_
  · intro b hb
    rcases hk b with ⟨h, _⟩ | h <;> rw [h] at hb <;> cases hb
  · intro a _
    rcases hk a with ⟨_, h⟩ | h
    · exact hd _ h
    · rename_i hf
      rcases hf with hf | hf <;> rw [h] at hf <;> cases hf
  · intro a ha o h
    simp only [List.mem_cons, List.not_mem_nil, or_false] at ha
    rcases ha with rfl | rfl
    · rw [hA.1] at h; cases h
    · rw [hA.2] at h; cases h

theorem demo_kinds1 : ∀ b, demoReg1.kind b = .source ∧ (demoReg1.reg.obj b).tgt ∈ ["/s/m.py", "/s/x.py", "/s/t"] ∨ demoReg1.kind b = .other := by
  intro b
  by_cases hb : b = licantReg.reg.next
  · left; subst hb; exact ⟨rfl, by decide +kernel⟩
  · right
    unfold demoReg1 MReg.add
    simp only [if_neg hb]
    exact licantReg_kind b

theorem demo_kinds2 : ∀ b, demoReg2.kind b = .source ∧ (demoReg2.reg.obj b).tgt ∈ ["/s/m.py", "/s/x.py", "/s/t"] ∨ demoReg2.kind b = .other := by
  intro b
  by_cases hb : b = demoReg1.reg.next
  · left; subst hb; exact ⟨rfl, by decide +kernel⟩
  · have := demo_kinds1 b
    unfold demoReg2 MReg.add Core.add
    simp only [if_neg hb]
    exact this

theorem demo_reasonable : ReasonableSeq srcEnv 50 ⟨licantReg, noReg⟩ demoCalls := by
  refine ReasonableSeq.cons (Or.inr (demo_fits (by simp) (by decide +kernel) (fun b => Or.inr (licantReg_kind b)) (by decide +kernel))) ?_
  intro w1 h1
  have e1 : callD srcEnv 50 ⟨licantReg, noReg⟩ (.source "/s/m.py") = .ok ⟨demoReg1, noReg⟩ := rfl
  rw [e1] at h1
  cases h1
  refine ReasonableSeq.cons (Or.inr (demo_fits (by simp) (by decide +kernel) demo_kinds1 (by decide +kernel))) ?_
  intro w2 h2
  have e2 : callD srcEnv 50 ⟨demoReg1, noReg⟩ (.source "/s/x.py") = .ok ⟨demoReg2, noReg⟩ := rfl
  rw [e2] at h2
  cases h2
  refine ReasonableSeq.cons ⟨demo_fits (by simp) (by decide +kernel) demo_kinds2 (by decide +kernel), ?_⟩ ?_
  · intro r hr
    have hgl : globs srcEnv ["/s/x.py"] = ["/s/x.py"] := by decide +kernel
    rw [hgl, List.mem_singleton] at hr
    subst hr
    exact ⟨by decide +kernel, Or.inl ⟨5, Or.inl (by decide +kernel), by decide +kernel⟩⟩
  · intro w3 _ pre cl post w' he
    simp at he

example : ∃ st, mainScript srcEnv 50 demoFiles 10 noReg "/s/m.py" demoMain = (st, true) ∧ st.ran = ["/s/m.py", "/s/x.py"] ∧
    ReasonableSeq srcEnv 50 ⟨licantReg, noReg⟩ st.calls ∧
    ∃ o, Resolves srcEnv.canon st.world.dflt.reg "/s/x.py" o ∧ st.world.dflt.kind o = .source := by
  refine ⟨_, demo_run, rfl, demo_reasonable, 5, Or.inl ?_, ?_⟩ <;> decide +kernel

end Licant.Make.Scripted
