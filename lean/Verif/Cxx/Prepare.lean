/-
Model of the first part of `prepare_targets` (licant/cxx_modules.py:432-462), which computes the options of a module
from its own options, the modules it includes and the modules it depends on: C81, C82.
-/
import Verif.Cxx.Merge
import Verif.Modules.Collect

set_option autoImplicit false

namespace Licant.Cxx
open Licant.Py Licant.Modules

/-- licant/cxx_modules.py:445-455, the local function `include_modules`; the first argument is the recursion limit.  The
entries must be `submodule` objects: others have no attribute `name`. -/
def inclMods (tc : Toolchain) (home : String → String) : Nat → Lib × Opts → List Val → Except Err (Lib × Opts)
  | 0, _, _ => .error .recursion
  | fuel + 1, s, lst => lst.foldlM (fun s simod =>
      match simod with
      | .sub name impl => do
        let g ← s.1.get name impl
        let r ← merge tc home .incl s.2 (g.1.obj g.2).opts
        match (g.1.obj g.2).opts.get "include_modules" with
        | none => pure (g.1, r)
        | some v => do
          let l ← v.iter
          inclMods tc home fuel (g.1, r) l
      | _ => throw .raised) s

/-- licant/cxx_modules.py:346-429 and 460-461: include the collected modules -/
def inclCollected (tc : Toolchain) (home : String → String) (lib : Lib) (mods : List Nat) (loc : Opts) :
    Except Err Opts :=
  mods.foldlM (fun loc o => merge tc home .incl loc (lib.obj o).opts) loc

/-- licant/cxx_modules.py:433-461: the options with which the targets of a module are made.  `key` are the sort keys left
in the module objects by earlier calls, `fuel` and `steps` are the limits of `collect`. -/
def finalOpts (tc : Toolchain) (home : String → String) (fuel steps : Nat) (key : Nat → Nat) (L : Lib)
    (name : String) (impl : Option String) (base : Opts) : Except Err (Lib × Opts) := do
  let (L, o) ← L.get name impl
  let modopts ← mkOptions tc (L.obj o).opts
  let loc ← merge tc home .merge base modopts
  match loc.get "include_modules" with
  | none => throw .raised
  | some v => do
    let l ← v.iter
    let (L, loc) ← inclMods tc home fuel (L, loc) l
    let (L, mods) ← collect fuel steps L key o
    let loc ← inclCollected tc home L mods loc
    return (L, loc)

/-! ### Specification -/

/-- `Included L l L' ms`: going through the entries `l` of an option `include_modules`, and into the modules included by
these modules, in the order in which they are written, meets the modules with the options `ms`.  `L'` is the library
afterwards (looking up the implementation `__none__` of a module adds it). -/
inductive Included : Lib → List Val → Lib → List Opts → Prop where
  | nil (L : Lib) : Included L [] L []
  | plain {L L1 L2 : Lib} {n : String} {i : Option String} {o : Nat} {rest : List Val} {ms : List Opts}
      (hget : L.get n i = .ok (L1, o)) (hno : (L1.obj o).opts.get "include_modules" = none)
      (hrest : Included L1 rest L2 ms) :
      Included L (.sub n i :: rest) L2 ((L1.obj o).opts :: ms)
  | deep {L L1 L2 L3 : Lib} {n : String} {i : Option String} {o : Nat} {rest l : List Val} {ms1 ms2 : List Opts}
      {v : Val} (hget : L.get n i = .ok (L1, o)) (hv : (L1.obj o).opts.get "include_modules" = some v)
      (hl : v.iter = .ok l) (hin : Included L1 l L2 ms1) (hrest : Included L2 rest L3 ms2) :
      Included L (.sub n i :: rest) L3 ((L1.obj o).opts :: ms1 ++ ms2)

theorem inclMods_ok {tc : Toolchain} {home : String → String} : ∀ (fuel : Nat) (lst : List Val) {s r : Lib × Opts},
    inclMods tc home fuel s lst = .ok r →
      ∃ ms, Included s.1 lst r.1 ms ∧ ms.foldlM (merge tc home .incl) s.2 = .ok r.2 := by
  intro fuel
  induction fuel with
  | zero => intro lst s r h; cases h
  | succ fuel ih =>
    intro lst
    induction lst with
    | nil =>
      intro s r h
      simp [inclMods, pure, Except.pure] at h
      subst h
      exact ⟨[], .nil _, rfl⟩
    | cons v lst ihl =>
      intro s r h
      rw [inclMods] at h
      simp only [List.foldlM_cons, bind, Except.bind] at h
      split at h
      · cases h
      · rename_i s1 hs1
        obtain ⟨ms2, hi2, hm2⟩ := ihl (s := s1) (r := r) (by rw [inclMods]; exact h)
        split at hs1
        · rename_i n i
          split at hs1
          · cases hs1
          · rename_i g hg
            split at hs1
            · cases hs1
            · rename_i R hR
              split at hs1
              · rename_i hno
                cases hs1
                exact ⟨_, .plain hg hno hi2, by
                  rw [List.foldlM_cons, hR]; exact hm2⟩
              · rename_i w hw
                split at hs1
                · cases hs1
                · rename_i l hl
                  obtain ⟨ms1, hi1, hm1⟩ := ih l hs1
                  refine ⟨_, .deep hg hw hl hi1 hi2, ?_⟩
                  rw [List.cons_append, List.foldlM_cons, hR]
                  simp only [bind, Except.bind, List.foldlM_append]
                  rw [hm1]
                  exact hm2
        · cases hs1

/-- **C81**: the options with which a module is built come from, in this order: the base options, the module's own
options, the modules of `include_modules` with what they include (in the order written), and the modules collected from
`mdepends` (in the order of `collect_modules`); nothing else enters. -/
theorem C81_final {tc : Toolchain} {home : String → String} {fuel steps : Nat} {key : Nat → Nat} {L L' : Lib}
    {name : String} {impl : Option String} {base R : Opts}
    (h : finalOpts tc home fuel steps key L name impl base = .ok (L', R)) :
    ∃ L1 o own v l L2 incs mods,
      L.get name impl = .ok (L1, o) ∧ (∀ k v, (k, v) ∈ (L1.obj o).opts → Allowed k v) ∧
      merge tc home .merge base (L1.obj o).opts = .ok own ∧
      own.get "include_modules" = some v ∧ v.iter = .ok l ∧ Included L1 l L2 incs ∧
      collect fuel steps L2 key o = .ok (L', mods) ∧
      (incs ++ mods.map fun o => (L'.obj o).opts).foldlM (merge tc home .incl) own = .ok R := by
  unfold finalOpts at h
  simp only [bind, Except.bind] at h
  split at h
  · cases h
  · rename_i g hg
    split at h
    · cases h
    · rename_i mo hmo
      split at h
      · cases h
      · rename_i own hown
        split at h
        · cases h
        · rename_i v hv
          split at h
          · cases h
          · rename_i l hl
            split at h
            · cases h
            · rename_i p hp
              obtain ⟨incs, hi, hm⟩ := inclMods_ok _ _ hp
              split at h
              · cases h
              · rename_i q hq
                split at h
                · cases h
                · rename_i loc hloc
                  cases h
                  have hmo' : mo = (g.1.obj g.2).opts ∧ ∀ k v, (k, v) ∈ (g.1.obj g.2).opts → Allowed k v := by
                    rcases (C50_validation tc (g.1.obj g.2).opts).2 with h' | h'
                    · rw [h'] at hmo
                      cases hmo
                      exact ⟨rfl, (C50_validation tc _).1.mp h'⟩
                    · rw [h'] at hmo
                      cases hmo
                  obtain ⟨rfl, hval⟩ := hmo'
                  refine ⟨g.1, g.2, own, v, l, p.1, incs, q.2, hg, hval, hown, hv, hl, hi, hq, ?_⟩
                  rw [List.foldlM_append, hm]
                  simp only [bind, Except.bind, List.foldlM_map]
                  exact hloc

/-- C81 with C51 and C79: what other modules say about the target, the build directory, the toolchain, optimization and
debug settings does not matter -/
theorem C81_settings {tc : Toolchain} {home : String → String} {fuel steps : Nat} {key : Nat → Nat} {L L' : Lib}
    {name : String} {impl : Option String} {base R : Opts}
    (h : finalOpts tc home fuel steps key L name impl base = .ok (L', R)) :
    ∃ L1 o, L.get name impl = .ok (L1, o) ∧
      ∀ k ∈ ["target", "builddir", "toolchain", "optimize", "debug"], ∀ b, base.get k = some b →
        R.get k = some (orElse (L1.obj o).opts k b) := by
  obtain ⟨L1, o, own, v, l, L2, incs, mods, hg, -, hown, -, -, -, -, hf⟩ := C81_final h
  refine ⟨L1, o, hg, fun k hk b hb => ?_⟩
  rw [(C51_include hf).1 k (by simp only [List.mem_cons, List.not_mem_nil, or_false] at hk ⊢; tauto)]
  exact (C79_own hown).1 k (by simp only [List.mem_cons, List.not_mem_nil, or_false] at hk ⊢; tauto) b hb

/-! ### C82: how included modules are named -/

/-- **C82** is false: a module that is included and itself names what it includes by plain names cannot be used -/
theorem C82_violated {tc : Toolchain} {home : String → String} {fuel : Nat} {L L1 : Lib} {B R : Opts} {n x : String}
    {i : Option String} {o : Nat} {rest rest' : List Val} (hget : L.get n i = .ok (L1, o))
    (hinc : (L1.obj o).opts.get "include_modules" = some (.list (.str x :: rest)))
    (hm : merge tc home .incl B (L1.obj o).opts = .ok R) :
    inclMods tc home (fuel + 2) (L, B) (.sub n i :: rest') = .error .raised := by
  rw [inclMods, List.foldlM_cons]
  simp only [hget, hm, hinc, bind, Except.bind, Val.iter]
  rw [inclMods, List.foldlM_cons]
  rfl

/-- what is left of C82: the module that is built may name the modules it includes by name, by name and implementation,
or as `submodule` objects -/
theorem C82_partial {tc : Toolchain} {home : String → String} {B m R : Opts} {b : List Val}
    {l : List (Val × String × Option String)}
    (hb : B.get "include_modules" = some (.list b)) (hg : m.get "include_modules" = some (.list (l.map (·.1))))
    (hl : ∀ e ∈ l, (e.1 = .str e.2.1 ∧ e.2.2 = none) ∨ (∃ i, e.1 = .tuple [.str e.2.1, .str i] ∧ e.2.2 = some i) ∨
      e.1 = .sub e.2.1 e.2.2)
    (h : merge tc home .merge B m = .ok R) :
    R.get "include_modules" = some (.list (b ++ l.map fun e => .sub e.2.1 e.2.2)) := by
  obtain ⟨f, v, hf, hv, hr⟩ := (merge_get h _).2 _ hb
  cases hf
  have hg' : given m "include_modules" = .list (l.map (·.1)) := by rw [given, hg]; rfl
  have hmap : (l.map (·.1)).mapM toSub = .ok (l.map fun e => .sub e.2.1 e.2.2) := by
    refine mapM_map_ok fun e he => ?_
    rcases hl e he with ⟨h1, h2⟩ | ⟨i, h1, h2⟩ | h1
    · rw [h1, h2]; rfl
    · rw [h1, h2]; rfl
    · rw [h1]; rfl
  simp only [Field.fn, Fn.app, hg', Val.iter, bind, Except.bind, hmap, Val.add] at hv
  cases hv
  exact hr

/-! ### C83: including terminates -/

/-- **C83** is false: a module that includes itself makes the inclusion recurse until the recursion limit is reached,
whatever that limit is -/
theorem C83_violated {tc : Toolchain} {home : String → String} {L : Lib} {n : String} {i : Option String} {o : Nat}
    (hget : L.get n i = .ok (L, o)) (hinc : (L.obj o).opts.get "include_modules" = some (.list [.sub n i]))
    (hm : Includable (L.obj o).opts) : ∀ (fuel : Nat) (B : Opts), Complete B →
      inclMods tc home fuel (L, B) [.sub n i] = .error .recursion := by
  intro fuel
  induction fuel with
  | zero => intro B _; rfl
  | succ fuel ih =>
    intro B hB
    obtain ⟨R, hR, hC⟩ := merge_incl_ok (tc := tc) (home := home) hB hm
    rw [inclMods, List.foldlM_cons]
    simp only [hget, hR, hinc, bind, Except.bind, Val.iter]
    rw [ih R hC]

/-- what is left of C83: if following the inclusions comes to an end at all, then with enough stack the inclusion
returns, and it returns the modules met merged in the order they are met -/
theorem C83_partial {tc : Toolchain} {home : String → String} {L L' : Lib} {l : List Val} {ms : List Opts}
    (hi : Included L l L' ms) : ∀ {B : Opts}, Complete B → (∀ m ∈ ms, Includable m) →
      ∃ R N, ms.foldlM (merge tc home .incl) B = .ok R ∧ Complete R ∧
        ∀ fuel, N ≤ fuel → inclMods tc home fuel (L, B) l = .ok (L', R) := by
  induction hi with
  | nil L =>
    intro B hB _
    refine ⟨B, 1, rfl, hB, fun fuel hf => ?_⟩
    obtain ⟨f, rfl⟩ : ∃ f, fuel = f + 1 := ⟨fuel - 1, by omega⟩
    rfl
  | plain hget hno _ ih =>
    intro B hB hms
    obtain ⟨B1, h1, hC1⟩ := merge_incl_ok (tc := tc) (home := home) hB (hms _ List.mem_cons_self)
    obtain ⟨R, N, h2, hC2, h3⟩ := ih hC1 fun m hm => hms m (by simp [hm])
    refine ⟨R, N + 1, ?_, hC2, fun fuel hf => ?_⟩
    · rw [List.foldlM_cons, h1]
      exact h2
    · obtain ⟨f, rfl⟩ : ∃ f, fuel = f + 1 := ⟨fuel - 1, by omega⟩
      have h4 := h3 (f + 1) (by omega)
      rw [inclMods] at h4
      rw [inclMods, List.foldlM_cons]
      simp only [hget, h1, hno, bind, Except.bind, pure, Except.pure] at h4 ⊢
      exact h4
  | deep hget hv hl _ _ ih1 ih2 =>
    intro B hB hms
    obtain ⟨B1, h1, hC1⟩ := merge_incl_ok (tc := tc) (home := home) hB (hms _ List.mem_cons_self)
    obtain ⟨R1, N1, h2, hC2, h3⟩ := ih1 hC1 fun m hm => hms m (by simp [hm])
    obtain ⟨R, N2, h4, hC3, h5⟩ := ih2 hC2 fun m hm => hms m (by simp [hm])
    refine ⟨R, N1 + N2 + 1, ?_, hC3, fun fuel hf => ?_⟩
    · rw [List.cons_append, List.foldlM_cons, h1]
      simp only [bind, Except.bind, List.foldlM_append]
      rw [h2]
      exact h4
    · obtain ⟨f, rfl⟩ : ∃ f, fuel = f + 1 := ⟨fuel - 1, by omega⟩
      have h6 := h5 (f + 1) (by omega)
      have h7 := h3 f (by omega)
      rw [inclMods] at h6
      rw [inclMods, List.foldlM_cons]
      simp only [hget, h1, hv, hl, h7, bind, Except.bind] at h6 ⊢
      exact h6

/-! ### C84: dependencies of included modules -/

theorem Included.ext {L L' : Lib} {l : List Val} {ms : List Opts} (h : Included L l L' ms) :
    L.Wf → L'.Wf ∧ LExt L L' := by
  induction h with
  | nil L => exact fun hw => ⟨hw, .refl _⟩
  | plain hget _ _ ih =>
    intro hw
    obtain ⟨h1, h2, -⟩ := get_ok hw hget
    obtain ⟨h3, h4⟩ := ih h1
    exact ⟨h3, h2.trans h1 h4⟩
  | deep hget _ _ _ _ ih1 ih2 =>
    intro hw
    obtain ⟨h1, h2, -⟩ := get_ok hw hget
    obtain ⟨h3, h4⟩ := ih1 h1
    obtain ⟨h5, h6⟩ := ih2 h3
    exact ⟨h5, (h2.trans h1 h4).trans h3 h6⟩

/-- **C84** is false: if the module that is built has no `mdepends` of its own, the `mdepends` of the modules it includes
have no effect, whatever they are: only the included modules themselves are merged -/
theorem C84_violated {tc : Toolchain} {home : String → String} {fuel steps : Nat} {key : Nat → Nat} {L L' L1 : Lib}
    {name : String} {impl : Option String} {base R : Opts} {o : Nat} (hL : Declared L)
    (h : finalOpts tc home fuel steps key L name impl base = .ok (L', R))
    (hget : L.get name impl = .ok (L1, o)) (hno : (L1.obj o).opts.get "mdepends" = none) :
    ∃ own v l incs, merge tc home .merge base (L1.obj o).opts = .ok own ∧
      own.get "include_modules" = some v ∧ v.iter = .ok l ∧ Included L1 l L' incs ∧
      incs.foldlM (merge tc home .incl) own = .ok R := by
  obtain ⟨L1', o', own, v, l, L2, incs, mods, hg, -, hown, hv, hl, hi, hc, hf⟩ := C81_final h
  rw [hget] at hg
  cases hg
  obtain ⟨hw1, -, hfind⟩ := get_ok hL.wf hget
  obtain ⟨-, hx⟩ := hi.ext hw1
  have ho : (L2.obj o).opts.has "mdepends" = false := by
    rw [hx.obj o (hfind.name hw1).1, Dict.has, hno]
    rfl
  have : collect fuel steps L2 key o = .ok (L2, []) := by
    unfold collect collectIf
    simp only [ho, bind, Except.bind, Bool.false_eq_true, if_false]
    cases steps <;> simp [collectLoop, pure, Except.pure]
  rw [this] at hc
  cases hc
  refine ⟨own, v, l, incs, hown, hv, hl, hi, ?_⟩
  simpa using hf

/-- C84, the part that holds: what the module that is built names in its own `mdepends`, and what the modules collected so
name in turn, is part of the build: a module of that name is among those whose options are merged into the result. -/
theorem C84_partial {tc : Toolchain} {home : String → String} {fuel steps : Nat} {key : Nat → Nat} {L L' : Lib}
    {name : String} {impl : Option String} {base R : Opts} (hL : Declared L)
    (h : finalOpts tc home fuel steps key L name impl base = .ok (L', R)) :
    ∃ L1 o own incs, ∃ mods : List Nat, L.get name impl = .ok (L1, o) ∧ merge tc home .merge base (L1.obj o).opts = .ok own ∧
      (incs ++ mods.map fun o => (L'.obj o).opts).foldlM (merge tc home .incl) own = .ok R ∧
      ∀ m, m = o ∨ m ∈ mods → ∀ d, Requests (L'.obj m) d → ∃ m' ∈ mods, (L'.obj m').name = d.name := by
  obtain ⟨L1, o, own, v, l, L2, incs, mods, hg, -, hown, hv, hl, hi, hc, hf⟩ := C81_final h
  obtain ⟨hw1, -, hfind⟩ := get_ok hL.wf hg
  obtain ⟨hw2, hx⟩ := hi.ext hw1
  have ho : o < L2.next := lt_of_lt_of_le (hfind.name hw1).1 hx.next
  exact ⟨L1, o, own, incs, mods, hg, hown, hf, (collect_closed hw2 ho hc).2⟩

/-! ### Cases -/

/-- `app` includes `a` by name; `a` includes `b` and depends on `c`; `self` includes itself; `bad` names `b` by a text -/
def prepDemo : List Op :=
  [.module "/p/l.py" "app" none false [("sources", .list [.str "main.c"]), ("include_modules", .list [.str "a"])],
   .module "/p/a/l.py" "a" none false [("defines", .list [.str "A"]), ("target", .str "x"),
     ("include_modules", .list [.sub "b" none]), ("mdepends", .list [.str "c"])],
   .module "/p/b/l.py" "b" none false [("sources", .list [.str "b.c"]), ("defines", .list [.str "B"])],
   .module "/p/c/l.py" "c" none false [("defines", .list [.str "C"])],
   .module "/p/l.py" "self" none false [("include_modules", .list [.sub "self" none])],
   .module "/p/l.py" "bad" none false [("include_modules", .list [.str "b"])]]

def prepLib : Lib := match Lib.empty.run prepDemo with | .ok L => L | .error _ => Lib.empty

theorem prepLib_declared : Declared prepLib := ⟨prepDemo, rfl⟩

theorem finalOpts_of {tc : Toolchain} {home : String → String} {fuel steps : Nat} {key : Nat → Nat}
    {L L1 L2 L3 : Lib} {name : String} {impl : Option String} {base own loc R : Opts} {o : Nat} {v : Val}
    {l : List Val} {mods : List Nat} (hget : L.get name impl = .ok (L1, o))
    (hval : mkOptions tc (L1.obj o).opts = .ok (L1.obj o).opts)
    (hown : merge tc home .merge base (L1.obj o).opts = .ok own) (hv : own.get "include_modules" = some v)
    (hl : v.iter = .ok l) (hi : inclMods tc home fuel (L1, own) l = .ok (L2, loc))
    (hc : collect fuel steps L2 key o = .ok (L3, mods)) (hf : inclCollected tc home L3 mods loc = .ok R) :
    finalOpts tc home fuel steps key L name impl base = .ok (L3, R) := by
  unfold finalOpts
  simp only [hget, hval, hown, hv, hl, hi, hc, hf, bind, Except.bind, pure, Except.pure]

/-- C81 and C84 are not empty: `app` gets what `a` and `b` say, but not what `c` says, on which `a` depends -/
theorem prepDemo_result : ∃ R, finalOpts stdTools id 10 10 (fun _ => 0) prepLib "app" none (setDefaults stdTools []) =
      .ok (prepLib, R) ∧ R.get "defines" = some (.list [.str "A", .str "B"]) ∧
      R.get "sources" = some (.list [.str "/p/main.c", .str "/p/b/b.c"]) ∧
      R.get "target" = some (.str "target") := by
  have hc : collect 10 10 prepLib (fun _ => 0) 0 = .ok (prepLib, []) := by
    have h : ((prepLib.obj 0).opts.has "mdepends") = false := rfl
    unfold collect collectIf
    simp [h, collectLoop, bind, Except.bind, pure, Except.pure]
  exact ⟨_, finalOpts_of (L1 := prepLib) rfl rfl rfl rfl rfl rfl hc rfl, rfl, rfl, rfl⟩

/-- the further hypotheses of C84; the included module `a` depends on `c` -/
example : prepLib.get "app" none = .ok (prepLib, 0) ∧ (prepLib.obj 0).opts.get "mdepends" = none ∧
    Requests (prepLib.obj 1) (.plain "c") := ⟨rfl, rfl, _, _, .str "c", rfl, rfl, by simp, rfl⟩

/-- C84_partial: built itself, `a` gets what `c` says -/
example : ∃ R, finalOpts stdTools id 10 10 (fun _ => 0) prepLib "a" none (setDefaults stdTools []) =
      .ok (prepLib, R) ∧ R.get "defines" = some (.list [.str "A", .str "B", .str "C"]) ∧
      Requests (prepLib.obj 1) (.plain "c") := by
  have hc : collect 10 10 prepLib (fun _ => 0) 1 = .ok (prepLib, [3]) := by
    have : ∃ k : Nat → Nat, collect 10 10 prepLib (fun _ => 0) 1 =
        .ok (prepLib, [3].mergeSort fun a b => k a ≤ k b) := ⟨_, rfl⟩
    obtain ⟨k, hk⟩ := this
    rw [hk, List.mergeSort_singleton]
  exact ⟨_, finalOpts_of (L1 := prepLib) rfl rfl rfl rfl rfl rfl hc rfl, rfl, _, _, .str "c", rfl, rfl, by simp, rfl⟩

/-- C82: the hypotheses of the negation, and of what is left -/
example : prepLib.get "bad" none = .ok (prepLib, 5) ∧
    (prepLib.obj 5).opts.get "include_modules" = some (.list [.str "b"]) ∧
    (∃ R, merge stdTools id .incl demoBase (prepLib.obj 5).opts = .ok R) ∧
    (∃ R, merge stdTools id .merge demoBase (prepLib.obj 0).opts = .ok R ∧
      R.get "include_modules" = some (.list [.sub "a" none])) := ⟨rfl, rfl, ⟨_, rfl⟩, _, rfl, rfl⟩

/-- C83: the hypotheses of the negation, and of what is left -/
example : prepLib.get "self" none = .ok (prepLib, 4) ∧
    (prepLib.obj 4).opts.get "include_modules" = some (.list [.sub "self" none]) ∧ Includable (prepLib.obj 4).opts ∧
    Included prepLib [.sub "a" none, .sub "b" none] prepLib
      [(prepLib.obj 1).opts, (prepLib.obj 2).opts, (prepLib.obj 2).opts] := by
  refine ⟨rfl, rfl, ⟨⟨_, rfl⟩, ⟨"", .inr ⟨rfl, rfl⟩⟩, ?_, ?_, .inl rfl, ?_⟩, ?_⟩
  · intro k hk
    simp only [List.mem_cons, List.not_mem_nil, or_false] at hk
    rcases hk with rfl | rfl | rfl | rfl <;> exact .inl rfl
  · intro k hk
    simp only [List.mem_cons, List.not_mem_nil, or_false] at hk
    rcases hk with rfl | rfl | rfl | rfl | rfl | rfl <;> exact .inl rfl
  · intro k hk
    simp only [List.mem_cons, List.not_mem_nil, or_false] at hk
    rcases hk with rfl | rfl | rfl | rfl | rfl <;> exact .inl rfl
  · exact .deep (ms1 := [(prepLib.obj 2).opts]) rfl rfl rfl (.plain rfl rfl (.nil _)) (.plain rfl rfl (.nil _))

end Licant.Cxx
