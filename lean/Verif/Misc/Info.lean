/-
The commands that only print: `m list`, `m print`, `cxxm collect_modules`, `l list`, `l included`.  C123.
-/
import Verif.Modules.Collect
import Verif.Misc.Cli
import Verif.Misc.Scripts

set_option autoImplicit false

namespace Licant.Misc
open Licant.Py Licant.Core
open Licant.Py.Path (Str)
open Licant.Misc.Scripts (Files SS)
open Licant.Modules (Lib Requests Declared Gives collect)

/-! ### model -/

/-- `sorted` of a list of texts: by code points -/
def sortStr (l : List String) : List String := l.mergeSort fun a b => decide (a ≤ b)

/-- modules.py:160-173 `print_modules_list`: the printed names, each with the names of its implementations.  `search p n` is
`re.search(p, n)`; patterns that are no regular expressions (re.error) are left out, and so is the message that is printed if
there are no modules. -/
def modList (search : String → String → Bool) (L : Lib) (args : List String) : List (String × List String) :=
  let mkeys := sortStr L.modules.keys
  let mkeys := match args with
    | [] => mkeys
    | p :: _ => mkeys.filter (search p)
  mkeys.map fun k => (k, ((L.modules.get k).getD []).keys)

/-- modules.py:176-186 `print_module`: the module whose `__dict__` is printed; `none` is the usage message -/
def printModule (L : Lib) (args : List String) : Except Modules.Err (Lib × Option Nat) :=
  match args with
  | [] => .ok (L, none)
  | [n] => do let r ← L.getDefault n; .ok (r.1, some r.2)
  | n :: i :: _ => do let r ← L.get n (some i); .ok (r.1, some r.2)

/-- cxx_modules.py:596-606 `print_collect_list`: the printed names and implementations; nothing but a message without arguments.
`key` are the sort keys that the modules have from earlier calls. -/
def collectList (fuel steps : Nat) (L : Lib) (key : Nat → Nat) (args : List String) :
    Except Modules.Err (Lib × List (String × Option String)) :=
  match args with
  | [] => .ok (L, [])
  | n :: _ => do
    let r ← L.get n none
    let c ← collect fuel steps r.1 key r.2
    .ok (c.1, (c.2.mergeSort fun a b => decide ((c.1.obj a).name ≤ (c.1.obj b).name)).map fun o => ((c.1.obj o).name, (c.1.obj o).impl))

/-- libs.py:97-103 `print_system_libs` -/
def libsList (W : Files) : List (String × Str) := (sortStr W.libs.keys).map fun k => (k, (W.libs.get k).getD [])

/-- libs.py:106-109 `print_included_libs` -/
def libsIncluded (st : SS) : List (String × Str) := (sortStr st.included.keys).map fun k => (k, (st.included.get k).getD [])

/-- the program: its core and its module library -/
structure InfoSt where
  core : Reg
  lib : Lib

/-- what is printed -/
inductive Out where
  | modules (l : List (String × List String))
  | module (o : Option Nat)
  | other

/-- modules.py:189-198: the target `m` (the object `m` here) with its actions; everything else is arbitrary -/
def infoProg (canon : String → String) (search : String → String → Bool) (m : Nat) (routine : Nat → Bool) (actions : Nat → List String)
    (eval : InfoSt → Except Err InfoSt) (hasattr : Nat → String → Bool) (other : Call → InfoSt → Except Err (InfoSt × Out)) :
    Prog InfoSt Out where
  canon := canon
  core := (·.core)
  setCore s c := { s with core := c }
  routine := routine
  actions o := if o = m then ["actlist", "print", "dependies", "list"] else actions o
  eval := eval
  hasattr o a := if o = m then a ∈ ["actlist", "print", "dependies", "list", "action"] else hasattr o a
  act k s :=
    if k.obj = m ∧ k.action = "list" then .ok (s, .modules (modList search s.lib k.args))
    else if k.obj = m ∧ k.action = "print" then
      match printModule s.lib k.args with
      | .ok (L, o) => .ok ({ s with lib := L }, .module o)
      | .error .exit => .error .exit
      | .error _ => .error .type
    else other k s

/-! ### sorting -/

theorem mem_sortStr {l : List String} {x : String} : x ∈ sortStr l ↔ x ∈ l := List.mem_mergeSort

theorem sorted_by {β : Type} (f : β → String) (l : List β) :
    (l.mergeSort fun a b => decide (f a ≤ f b)).Pairwise fun a b => f a ≤ f b := by
  have := List.pairwise_mergeSort (le := fun a b => decide (f a ≤ f b))
    (fun a b c h1 h2 => by simp only [decide_eq_true_eq] at *; exact le_trans h1 h2)
    (fun a b => by simp only [Bool.or_eq_true, decide_eq_true_eq]; exact le_total _ _) l
  simpa using this

/-- sorting distinct texts: strictly increasing -/
theorem strict_by {β : Type} (f : β → String) {l : List β} (h : (l.map f).Nodup) :
    (l.mergeSort fun a b => decide (f a ≤ f b)).Pairwise fun a b => f a < f b := by
  have h1 := sorted_by f l
  have h2 : ((l.mergeSort fun a b => decide (f a ≤ f b)).map f).Nodup :=
    (((List.mergeSort_perm l _).map f).nodup_iff).2 h
  rw [List.Nodup, List.pairwise_map] at h2
  exact (h1.and h2).imp fun h => lt_of_le_of_ne h.1 h.2

theorem strict_sortStr {l : List String} (h : l.Nodup) : (sortStr l).Pairwise (· < ·) := by
  have := strict_by (fun x : String => x) (l := l) (by simpa using h)
  exact this

/-! ### C123 -/

variable {search : String → String → Bool} {L L' : Lib}

/-- **C123**, `m list`: the printed names are increasing, and an implementation `i` is printed with the name `n` exactly if it is
registered (looking it up returns it and changes nothing) and `n` matches the pattern, if there is one. -/
theorem C123_modules_partial (hL : L.modules.keys.Nodup) (args : List String) :
    ((modList search L args).map (·.1)).Pairwise (· < ·) ∧
    ∀ n i, (∃ is, (n, is) ∈ modList search L args ∧ i ∈ is) ↔
      (∃ o, Gives L n (some i) o) ∧ ∀ p ∈ args.head?, search p n = true := by
  have hout : ∀ l : List String, ((l.map fun k => (k, ((L.modules.get k).getD []).keys)).map (·.1)) = l := by
    intro l; rw [List.map_map]; exact List.map_id _
  have hreg : ∀ n i, (n ∈ L.modules.keys ∧ i ∈ ((L.modules.get n).getD []).keys) ↔ ∃ o, Gives L n (some i) o := by
    intro n i
    rw [← Dict.get_isSome_iff, ← Dict.get_isSome_iff]
    unfold Gives Lib.get Lib.getImpl
    cases hm : L.modules.get n with
    | none => simp
    | some v =>
      simp only [Option.isSome_some, Option.getD_some, true_and]
      cases hv : v.get i with
      | none =>
        simp only [Option.isSome_none, Bool.false_eq_true, false_iff]
        rintro ⟨o, ho⟩
        split at ho
        · simp only [Except.ok.injEq, Prod.mk.injEq] at ho
          have := congrArg Lib.next ho.1
          simp [Lib.registerImpl] at this
        · cases ho
      | some o => simp
  unfold modList
  dsimp only
  rw [hout]
  constructor
  · cases args with
    | nil => exact strict_sortStr hL
    | cons p l => exact (strict_sortStr hL).filter _
  · intro n i
    rw [← hreg]
    cases args with
    | nil =>
      constructor
      · rintro ⟨is, h1, h2⟩
        obtain ⟨k, hk, e⟩ := List.mem_map.1 h1
        cases e
        exact ⟨⟨mem_sortStr.1 hk, h2⟩, by simp⟩
      · rintro ⟨⟨h1, h2⟩, _⟩
        exact ⟨_, List.mem_map.2 ⟨n, mem_sortStr.2 h1, rfl⟩, h2⟩
    | cons p l =>
      constructor
      · rintro ⟨is, h1, h2⟩
        obtain ⟨k, hk, e⟩ := List.mem_map.1 h1
        cases e
        obtain ⟨h3, h4⟩ := List.mem_filter.1 hk
        exact ⟨⟨mem_sortStr.1 h3, h2⟩, by simpa using h4⟩
      · rintro ⟨⟨h1, h2⟩, h3⟩
        exact ⟨_, List.mem_map.2 ⟨n, List.mem_filter.2 ⟨mem_sortStr.2 h1, h3 p (by simp)⟩, rfl⟩, h2⟩

/-- **C123**, `cxxm collect_modules NAME`: exactly the modules collected for the default implementation of NAME are printed, by
increasing names. -/
theorem C123_collected_partial (hL : Declared L) {fuel steps : Nat} {key : Nat → Nat} {n : String} {rest : List String}
    {out : List (String × Option String)} (h : collectList fuel steps L key (n :: rest) = .ok (L', out)) :
    (out.map (·.1)).Pairwise (· < ·) ∧
    ∃ L1 o res, L.get n none = .ok (L1, o) ∧ collect fuel steps L1 key o = .ok (L', res) ∧
      ∀ x i, (x, i) ∈ out ↔ ∃ m ∈ res, (L'.obj m).name = x ∧ (L'.obj m).impl = i := by
  unfold collectList at h
  simp only [bind, Except.bind] at h
  cases h1 : L.get n none with
  | error e => rw [h1] at h; cases h
  | ok r =>
    rw [h1] at h
    dsimp only at h
    cases h2 : collect fuel steps r.1 key r.2 with
    | error e => rw [h2] at h; cases h
    | ok c =>
      rw [h2] at h
      simp only [Except.ok.injEq, Prod.mk.injEq] at h
      obtain ⟨rfl, rfl⟩ := h
      obtain ⟨hw, _, hf⟩ := Modules.get_ok hL.wf h1
      have hlt : r.2 < r.1.next := (hf.name hw).1
      have hnd := (Modules.collect_closed hw hlt (by rw [h2])).1
      refine ⟨?_, r.1, r.2, c.2, rfl, h2, fun x i => ?_⟩
      · rw [List.map_map, List.pairwise_map]
        exact strict_by (fun o => (c.1.obj o).name) hnd
      · rw [List.mem_map]
        constructor
        · rintro ⟨m, hm, e⟩
          cases e
          exact ⟨m, List.mem_mergeSort.1 hm, rfl, rfl⟩
        · rintro ⟨m, hm, rfl, rfl⟩
          exact ⟨m, List.mem_mergeSort.2 hm, rfl⟩

/-- **C123**, `l list` and `l included`: a library is printed with a path exactly if the user's registry says so, or only the system's
registry knows it and says so; of the included ones, exactly those; by increasing names. -/
theorem C123_libs_partial (W : Files) (hg : W.glibs.keys.Nodup) (hl : W.llibs.keys.Nodup) (st : SS) (hi : st.included.keys.Nodup) :
    (((libsList W).map (·.1)).Pairwise (· < ·) ∧
      ∀ n p, (n, p) ∈ libsList W ↔ W.llibs.get n = some p ∨ W.llibs.get n = none ∧ W.glibs.get n = some p) ∧
    ((libsIncluded st).map (·.1)).Pairwise (· < ·) ∧ ∀ n p, (n, p) ∈ libsIncluded st ↔ st.included.get n = some p := by
  have key : ∀ d : Dict String Str, d.keys.Nodup →
      ((((sortStr d.keys).map fun k => (k, (d.get k).getD [])).map (·.1)).Pairwise (· < ·)) ∧
      ∀ n p, (n, p) ∈ (sortStr d.keys).map (fun k => (k, (d.get k).getD [])) ↔ d.get n = some p := by
    intro d hd
    constructor
    · rw [List.map_map]
      show ((sortStr d.keys).map id).Pairwise _
      rw [List.map_id]
      exact strict_sortStr hd
    · intro n p
      rw [List.mem_map]
      constructor
      · rintro ⟨k, hk, e⟩
        cases e
        rw [mem_sortStr, ← Dict.get_isSome_iff] at hk
        cases h : d.get n with
        | none => rw [h] at hk; cases hk
        | some x => rfl
      · intro h
        exact ⟨n, mem_sortStr.2 (by rw [← Dict.get_isSome_iff, h]; rfl), by rw [h]; rfl⟩
  have hnd : W.libs.keys.Nodup := by
    unfold Files.libs Dict.update
    have : ∀ (e d : Dict String Str), d.keys.Nodup → (e.foldl (fun acc p => acc.set p.1 p.2) d).keys.Nodup := by
      intro e
      induction e with
      | nil => intro d hd; exact hd
      | cons x e ih => intro d hd; exact ih _ (Dict.nodup_keys_set hd _ _)
    exact this _ _ hg
  refine ⟨⟨(key W.libs hnd).1, fun n p => ?_⟩, key st.included hi⟩
  refine ((key W.libs hnd).2 n p).trans ?_
  unfold Files.libs
  rw [Scripts.update_get _ _ hl]
  cases W.llibs.get n <;> simp

/-- **C123**, the command line, as it is: of the pattern given to `m list` only the first character is used, and `m print NAME` looks for
the implementation named by the second character of the module named by the first one; only names of one character work. -/
theorem C123_command {canon : String → String} {m : Nat} {routine : Nat → Bool} {actions : Nat → List String}
    {eval : InfoSt → Except Err InfoSt} {hasattr : Nat → String → Bool} {other : Call → InfoSt → Except Err (InfoSt × Out)}
    {s s' : InfoSt} (hm : s.core.targets.get "m" = some m) (hr : routine m = false) (he : eval s = .ok s') (default : Option String) :
    let P := infoProg canon search m routine actions eval hasattr other
    (P.dispatch default ["m", "list"] s = .ok (s', .modules (modList search s'.lib []))) ∧
    (∀ c w, P.dispatch default ["m", "list", String.ofList (c :: w)] s =
      .ok (s', .modules (modList search s'.lib [String.ofList [c]]))) ∧
    (∀ c, P.dispatch default ["m", "print", String.ofList [c]] s = match s'.lib.getDefault (String.ofList [c]) with
      | .ok (L, o) => .ok ({ s' with lib := L }, .module (some o))
      | .error .exit => .error .exit
      | .error _ => .error .type) ∧
    ∀ c d w, P.dispatch default ["m", "print", String.ofList (c :: d :: w)] s =
      match s'.lib.get (String.ofList [c]) (some (String.ofList [d])) with
      | .ok (L, o) => .ok ({ s' with lib := L }, .module (some o))
      | .error .exit => .error .exit
      | .error _ => .error .type := by
  have hhas : Core.has canon s.core "m" = (s.core, true) := by simp [Core.has, Dict.has, hm]
  have hget : Core.get canon s.core "m" = .ok m := by simp [Core.get, hm]
  have hstep : ∀ (act : String) (extra a : List String), act = "list" ∨ act = "print" → passed extra = .ok a →
      (infoProg canon search m routine actions eval hasattr other).dispatch default ("m" :: act :: extra) s =
        (infoProg canon search m routine actions eval hasattr other).act ⟨m, act, a⟩ s' := by
    intro act extra a hact hp
    unfold Prog.dispatch
    simp only [infoProg, hhas, hget, hr, bind, Except.bind, Prog.invoke, he, hp]
    rcases hact with rfl | rfl <;> simp
  have hact : ∀ a, (infoProg canon search m routine actions eval hasattr other).act ⟨m, "print", a⟩ s' =
      match printModule s'.lib a with
      | .ok (L, o) => .ok ({ s' with lib := L }, .module o)
      | .error .exit => .error .exit
      | .error _ => .error .type := by
    intro a
    simp [infoProg]
  refine ⟨?_, fun c w => ?_, fun c => ?_, fun c d w => ?_⟩
  · rw [hstep "list" [] [] (Or.inl rfl) rfl]
    simp [infoProg]
  · rw [hstep "list" _ _ (Or.inl rfl) rfl]
    simp [infoProg, modList]
  · rw [hstep "print" _ _ (Or.inr rfl) rfl, hact]
    simp only [String.toList_ofList, List.map_cons, List.map_nil, printModule, bind, Except.bind]
    rcases s'.lib.getDefault (String.ofList [c]) with e | r
    · cases e <;> rfl
    · rfl
  · rw [hstep "print" _ _ (Or.inr rfl) rfl, hact]
    simp only [String.toList_ofList, List.map_cons, printModule, bind, Except.bind]
    rcases s'.lib.get (String.ofList [c]) (some (String.ofList [d])) with e | r
    · cases e <;> rfl
    · rfl

/-! ### examples -/

/-- two modules, one of them with two implementations, and one that asks for both -/
def infoOps : List Modules.Op :=
  [.module "/p/a.py" "ac" none false [("mdepends", .list [.str "ab"])], .module "/p/a.py" "ab" none false [],
   .implementation "/p/a.py" "ab" "fast" false []]

def infoLib : Lib := match Lib.empty.run infoOps with | .ok L => L | .error _ => Lib.empty

theorem infoLib_declared : Declared infoLib := ⟨infoOps, rfl⟩

/-- the regular expressions that are plain texts -/
def contains (p n : String) : Bool := (List.range (n.toList.length + 1)).any fun k => p.toList.isPrefixOf (n.toList.drop k)

def infoReg : Reg := (Core.add Reg.empty ⟨"m", [], false, [], "action"⟩).1

/-- **C123 is false** on the command line: `licant m list ab` also prints the module `ac`, and `licant m print ab` ends with an error,
although there is a module `ab` with a default implementation. -/
theorem C123_violated : ∃ (L : Lib) (P : Prog InfoSt Out), Declared L ∧ P = infoProg id contains 0 (fun _ => false) (fun _ => []) .ok
      (fun _ _ => true) (fun _ s => .ok (s, .other)) ∧
    (∃ out, P.dispatch none ["m", "list", "ab"] ⟨infoReg, L⟩ = .ok (⟨infoReg, L⟩, .modules out) ∧ (∃ is, ("ac", is) ∈ out) ∧
      contains "ab" "ac" = false) ∧
    (∃ o, Gives L "ab" none o) ∧ P.dispatch none ["m", "print", "ab"] ⟨infoReg, L⟩ = .error .exit := by
  obtain ⟨_, h1, _, h2⟩ := C123_command (search := contains) (canon := id) (m := 0) (routine := fun _ => false) (actions := fun _ => [])
    (eval := .ok) (hasattr := fun _ _ => true) (other := fun _ s => .ok (s, .other)) (s := ⟨infoReg, infoLib⟩) rfl rfl rfl none
  refine ⟨infoLib, _, infoLib_declared, rfl, ⟨_, h1 'a' ['b'], ?_, by decide +kernel⟩, ⟨1, rfl⟩, (h2 'a' 'b' []).trans rfl⟩
  have := (C123_modules_partial (search := contains) (L := infoLib) (by decide +kernel) ["a"]).2 "ac" "__default__"
  obtain ⟨is, h, _⟩ := this.2 ⟨⟨0, rfl⟩, by intro p hp; cases hp; decide +kernel⟩
  exact ⟨is, h⟩

/-- The hypotheses of `C123_modules_partial` and `C123_collected_partial` are met. -/
example : infoLib.modules.keys.Nodup ∧ ∃ L' out, collectList 5 5 infoLib (fun _ => 0) ["ac"] = .ok (L', out) :=
  ⟨by decide +kernel, _, _, rfl⟩

/-- two registries that both know the library `a` -/
def infoFiles : Files where
  script _ := none
  exist _ := false
  find _ _ _ := []
  glibs := [("a", "/g/a".toList), ("b", "/g/b".toList)]
  llibs := [("a", "/l/a".toList)]

/-- `l list` prints the user's path of `a` and the system's path of `b` -/
example : ("a", "/l/a".toList) ∈ libsList infoFiles ∧ ("b", "/g/b".toList) ∈ libsList infoFiles ∧
    ("a", "/g/a".toList) ∉ libsList infoFiles := by
  have h := (C123_libs_partial infoFiles (by decide) (by decide) ⟨[], [], [], []⟩ (by decide)).1.2
  refine ⟨(h _ _).2 (Or.inl (by decide +kernel)), (h _ _).2 (Or.inr (by decide +kernel)), fun hm => ?_⟩
  have := (h _ _).1 hm
  revert this
  decide +kernel

end Licant.Misc
