/-
`application`, `library` and `objects`: C60, C89, C90.
-/
import Verif.Cxx.LinkProps

set_option autoImplicit false

namespace Licant.Cxx
open Licant.Py Licant.Make
open Licant.Modules (Err Val Opts Toolchain Lib IsModule)

/-! ### C60 -/

/-- the name of the module that is registered for `application(name)`, `library(name)`, `objects(name)` -/
def taskModule (name type : String) : String := if type ≠ "objects" then name ++ "__module" else name

/-- the options of this module: those of the call, the type and the file name of the result -/
def taskOpts (name type : String) (target : Option String) (kwargs : Opts) : Opts :=
  if type ≠ "objects" then [("type", .str type), ("target", .str (target.getD name))] ++ kwargs
  else [("type", .str type)] ++ kwargs

variable {S : Site} {tc : Toolchain} {fuel steps : Nat} {key : Nat → Nat} {lib lib' : Lib} {L L' : LReg}
  {script name type : String} {target impl : Option String} {default : Bool} {kwargs : Opts} {b : Built}

theorem prepare_exit {n : String} (hlim : S.lim ≠ 0) (h : lib.get n none = .error .exit) :
    prepareTargets S tc fuel steps key lib L n none [] = .error .exit := by
  obtain ⟨k, hk⟩ := Nat.exists_eq_succ_of_ne_zero hlim
  have h0 : mkOptions tc [] = .ok [] := rfl
  unfold prepareTargets
  simp only [h0, bind, Except.bind, hk]
  unfold modmake
  unfold finalOpts
  simp only [h, bind, Except.bind]

/-- **C60** is false: `application(name, impl=i, ...)` terminates the program whenever the module that it registers has no
default implementation yet, in particular when it is new. -/
theorem C60_violated {i : String} (hlim : S.lim ≠ 0) (hnew : lib.defimpls.get (taskModule name type) = none) :
    task S tc fuel steps key lib L script name target (some i) false type kwargs = .error .exit := by
  have key' : ∀ (n : String) (kw : Opts) (lib' : Lib), lib.defimpls.get n = none →
      lib.module script n (some i) false kw = .ok lib' → lib'.get n none = .error .exit := by
    intro n kw lib' hn hm
    have hd : lib'.defimpls = lib.defimpls := by
      simp only [Lib.module, Lib.implementation] at hm
      cases hm
      rfl
    unfold Lib.get
    split
    · rfl
    · simp only [Lib.getDefault, hd, hn]
  have hok : ∀ (n : String) (kw : Opts), ∃ lib', lib.module script n (some i) false kw = .ok lib' :=
    fun n kw => ⟨_, rfl⟩
  unfold task
  unfold taskModule at hnew
  split
  · rename_i ht
    rw [if_pos ht] at hnew
    obtain ⟨lib', hl⟩ := hok (name ++ "__module") ([("type", .str type), ("target", .str (target.getD name))] ++ kwargs)
    simp only [hl, bind, Except.bind, prepare_exit hlim (key' _ _ _ hnew hl)]
  · rename_i ht
    rw [if_neg ht] at hnew
    obtain ⟨lib', hl⟩ := hok name ([("type", .str type)] ++ kwargs)
    simp only [hl, bind, Except.bind, prepare_exit hlim (key' _ _ _ hnew hl)]

theorem module_lookup {n : String} {kw : Opts} (hd : impl = none ∨ default = true)
    (h : lib.module script n impl default kw = .ok lib') : ∃ o, lib'.get n none = .ok (lib', o) ∧
      IsModule (lib'.obj o) n (impl.getD "__default__") script kw := by
  have key' : ∀ i, lib.implementation script n i true kw = .ok lib' → ∃ o, lib'.get n none = .ok (lib', o) ∧
      IsModule (lib'.obj o) n i script kw := by
    intro i hi
    simp only [Lib.implementation, Lib.setDefimpl, Bool.not_true, Bool.and_false, Bool.false_eq_true,
      if_false, if_true] at hi
    cases hi
    refine ⟨lib.next, ?_, ?_⟩
    · simp [Lib.get, Lib.getDefault, Lib.getImpl, Lib.registerImpl, Modules.newMod]
    · simpa [Lib.registerImpl] using Modules.isModule_new n i script kw
  unfold Lib.module at h
  split at h
  · rename_i i
    rcases hd with hd | rfl
    · cases hd
    · exact key' i h
  · exact key' _ h

/-- what `task` does -/
theorem task_ok (h : task S tc fuel steps key lib L script name target impl default type kwargs = .ok ((lib', L'), b)) :
    ∃ lib1 L1 b1 R, lib.module script (taskModule name type) impl default (taskOpts name type target kwargs) = .ok lib1 ∧
      prepareTargets S tc fuel steps key lib1 L (taskModule name type) none [] = .ok ((lib', L1), b1, R) ∧
      ((type ≠ "objects" ∧ L' = L1 ∧ b = b1) ∨ (type = "objects" ∧ ∃ l ts, b1 = .objects l ∧ allStrings l = .ok ts ∧
        addFileset S L1 name ts = .ok L' ∧ b = .target (L'.m.reg.next - 1))) := by
  unfold task at h
  unfold taskModule taskOpts
  split at h
  · rename_i ht
    rw [if_pos ht, if_pos ht]
    simp only [bind, Except.bind] at h
    split at h
    · cases h
    · rename_i lib1 h1
      split at h
      · cases h
      · rename_i r h2
        obtain ⟨⟨l2, L2⟩, b2, R⟩ := r
        cases h
        exact ⟨lib1, _, _, R, h1, h2, Or.inl ⟨ht, rfl, rfl⟩⟩
  · rename_i ht
    rw [if_neg ht, if_neg ht]
    simp only [bind, Except.bind] at h
    split at h
    · cases h
    · rename_i lib1 h1
      split at h
      · cases h
      · rename_i r h2
        obtain ⟨⟨l2, L2⟩, b2, R⟩ := r
        simp only at h
        split at h
        · rename_i l
          split at h
          · cases h
          · rename_i ts hts
            split at h
            · cases h
            · rename_i L3 h3
              cases h
              exact ⟨lib1, _, _, R, h1, h2, Or.inr ⟨by simpa using ht, l, ts, rfl, hts, h3, rfl⟩⟩
        · cases h

/-! ### Inversion of `modmake` -/

theorem foldlM_count {α σ ε : Type} (f : σ → α → Except ε σ) (len : σ → Nat) (hf : ∀ s a s', f s a = .ok s' → len s' = len s + 2) :
    ∀ (l : List α) (s s' : σ), l.foldlM f s = .ok s' → len s' = len s + 2 * l.length := by
  intro l
  induction l with
  | nil => intro s s' h; cases h; simp
  | cons a l ih =>
    intro s s' h
    simp only [List.foldlM_cons, bind, Except.bind] at h
    split at h
    · cases h
    · rename_i s1 h1
      rw [ih _ _ h, hf _ _ _ h1, List.length_cons]
      omega

theorem foldlM_inv {α σ ε : Type} (f : σ → α → Except ε σ) (I : σ → Prop) (hf : ∀ s a s', f s a = .ok s' → I s → I s') :
    ∀ (l : List α) (s s' : σ), l.foldlM f s = .ok s' → I s → I s' := by
  intro l
  induction l with
  | nil => intro s s' h hi; cases h; exact hi
  | cons a l ih =>
    intro s s' h hi
    simp only [List.foldlM_cons, bind, Except.bind] at h
    split at h
    · cases h
    · rename_i s1 h1
      exact ih _ _ h (hf _ _ _ h1 hi)

theorem modmake_ok {depth : Nat} {n : String} {base R : Opts}
    (h : modmake S tc fuel steps key (depth + 1) (lib, L) n impl base = .ok ((lib', L'), b, R)) :
    ∃ lib1 loc L1 objs v subs L2 res, finalOpts tc S.env.home fuel steps key lib n impl base = .ok (lib1, loc) ∧
      makeObjects S L n loc = .ok (L1, objs, R) ∧ R.get "modules" = some v ∧ v.iter = .ok subs ∧
      res = List.replicate (2 * subs.length) (none : Option String) ∧
      (subs = [] → L2 = L1 ∧ lib' = lib1) ∧ finishTarget S L2 (objs.map some ++ res) R = .ok (L', b) := by
  rw [modmake] at h
  simp only [bind, Except.bind] at h
  split at h
  · cases h
  · rename_i r1 h1
    split at h
    · cases h
    · rename_i r2 h2
      obtain ⟨L1, objs, loc⟩ := r2
      simp only at h
      split at h
      · rename_i v hv
        split at h
        · cases h
        · rename_i subs hi
          split at h
          · cases h
          · rename_i r3 h3
            obtain ⟨lib2, L2, res⟩ := r3
            simp only at h
            split at h
            · cases h
            · rename_i r4 h4
              cases h
              have hres : res = List.replicate (2 * subs.length) none := by
                have hlen := foldlM_count _ (fun s : Lib × LReg × List (Option String) => s.2.2.length) (by
                  rintro ⟨l, m, r⟩ a s' hs'
                  split at hs'
                  · split at hs'
                    · cases hs'
                    · cases hs'; simp
                  · cases hs') _ _ _ h3
                have hnone := foldlM_inv _ (fun s : Lib × LReg × List (Option String) => ∀ x ∈ s.2.2, x = none) (by
                  rintro ⟨l, m, r⟩ a s' hs' hr
                  split at hs'
                  · split at hs'
                    · cases hs'
                    · cases hs'
                      intro x hx
                      simp only [List.mem_append, List.mem_cons, List.not_mem_nil, or_false, or_self] at hx
                      exact hx.elim (hr x) id
                  · cases hs') _ _ _ h3 (by simp)
                exact List.eq_replicate_iff.2 ⟨by simpa using hlen, hnone⟩
              refine ⟨r1.1, r1.2, L1, objs, v, subs, L2, res, h1, h2, hv, hi, hres, ?_, h4⟩
              rintro rfl
              cases h3
              exact ⟨rfl, rfl⟩
      · cases h

theorem allStrings_some (l : List String) : allStrings (l.map some) = .ok l := by
  induction l with
  | nil => rfl
  | cons x l ih =>
    unfold allStrings at ih ⊢
    rw [List.map_cons, List.mapM_cons, ih]
    rfl

theorem allStrings_none {l : List (Option String)} (h : none ∈ l) : ∀ ts, allStrings l ≠ .ok ts := by
  induction l with
  | nil => cases h
  | cons x l ih =>
    intro ts hts
    unfold allStrings at ih hts
    rw [List.mapM_cons] at hts
    simp only [bind, Except.bind] at hts
    split at hts
    · cases hts
    · rename_i y hy
      split at hts
      · cases hts
      · rename_i ys hys
        rcases List.mem_cons.1 h with rfl | h
        · cases hy
        · exact ih h ys hys

/-- the rule for a type of target -/
def ruleOf (type : String) : String → List String → CxxOpts → Except Err String :=
  if type = "application" then executableCommand
  else if type = "shared_library" then dynlibCommand else statlibCommand

theorem finishTarget_ok {objs : List (Option String)} {R : Opts} (h : finishTarget S L objs R = .ok (L', b)) :
    ∃ t, text R "type" = .ok t ∧
    (((t = "application" ∨ t = "shared_library" ∨ t = "static_library") ∧ ∃ opts tgt srcs,
        cxxOptions S.env.home R = .ok opts ∧ text R "target" = .ok tgt ∧ allStrings objs = .ok srcs ∧
        addFile S L tgt srcs false (fun u => ruleOf t u srcs opts) = .ok L' ∧ b = .target (L'.m.reg.next - 1)) ∨
      (t = "objects" ∧ L' = L ∧ b = .objects objs)) := by
  unfold finishTarget at h
  simp only [bind, Except.bind] at h
  split at h
  · cases h
  · rename_i t ht
    refine ⟨t, ht, ?_⟩
    split at h
    · rename_i hc
      left
      split at h
      · cases h
      · rename_i opts ho
        split at h
        · cases h
        · rename_i tgt htg
          split at h
          · cases h
          · rename_i srcs hs
            split at h
            · cases h
            · rename_i L2 hL
              cases h
              exact ⟨hc, opts, tgt, srcs, ho, htg, hs, hL, rfl⟩
    · split at h
      · rename_i hc
        cases h
        exact Or.inr ⟨hc, rfl, rfl⟩
      · cases h

/-- the source files with which a module is built: its sources and the files made from `qt_moc`; `bd` is the build
directory -/
def srcsOf (S : Site) (srcs mocs : List String) (bd : String) : List String :=
  pathsOf S srcs ++ buildPathsS (pathsOf S mocs) "h.cxx" none bd

/-- the object files made from them -/
def objsOf (S : Site) (srcs mocs : List String) (bd : String) : List String :=
  buildPathsS (pathsOf S srcs) "o" none bd ++ buildPathsS (pathsOf S mocs) "h.cxx.o" none bd

/-- their dependency files -/
def depsOf (S : Site) (srcs mocs : List String) (bd : String) : List String :=
  buildPathsS (pathsOf S srcs) "d" none bd ++ buildPathsS (pathsOf S mocs) "h.cxx.d" none bd

theorem buildPathsS_nil (ext : String) (pre : Option String) (bd : String) : buildPathsS [] ext pre bd = [] := by
  simp [buildPathsS, buildPaths]

theorem makeObjects_ok {n : String} {loc R : Opts} {objs : List String} (h : makeObjects S L n loc = .ok (L', objs, R)) :
    ∃ bd srcs mocs extra opts adddeps La Lb, text loc "builddir" = .ok bd ∧ texts loc "sources" = .ok srcs ∧
      texts loc "qt_moc" = .ok mocs ∧ texts loc "objects" = .ok extra ∧ objs = objsOf S srcs mocs bd ++ extra ∧
      (∀ k, k ≠ "include_paths" → R.get k = loc.get k) ∧ cxxOptions S.env.home R = .ok opts ∧
      linkObjects S La (srcsOf S srcs mocs bd) (objsOf S srcs mocs bd) (depsOf S srcs mocs bd) opts adddeps = .ok Lb ∧
      extra.foldlM (addSource S) Lb = .ok L' := by
  have hset : ∀ (o : Opts) (v : Val) (k : String), k ≠ "include_paths" → (o.set "include_paths" v).get k = o.get k :=
    fun o v k hk => Dict.get_set_ne _ _ (Ne.symm hk)
  have htext : ∀ {o o' : Opts} {k : String}, o.get k = o'.get k → text o k = text o' k := fun e => by
    unfold text; rw [e]
  have htexts : ∀ {o o' : Opts} {k : String}, o.get k = o'.get k → texts o k = texts o' k := fun e => by
    unfold texts; rw [e]
  have hui : ∀ {L L' : LReg} {bd : String} {loc loc' : Opts} {add add' : List String} {o o' : CxxOpts},
      cxxOptions S.env.home loc = .ok o → makeUi S L bd loc add o = .ok (L', loc', add', o') →
      cxxOptions S.env.home loc' = .ok o' ∧ ∀ k, k ≠ "include_paths" → loc'.get k = loc.get k := by
    intro L L' bd loc loc' add add' o o' ho h
    unfold makeUi at h
    simp only [bind, Except.bind] at h
    split at h
    · cases h
    · split at h
      · split at h
        · cases h
        · split at h
          · cases h
          · split at h
            · cases h
            · rename_i h4
              cases h
              refine ⟨h4, fun k hk => ?_⟩
              split
              · rfl
              · exact hset _ _ _ hk
      · cases h
        exact ⟨ho, fun _ _ => rfl⟩
  have hmoc : ∀ {L L' : LReg} {bd : String} {loc : Opts} {add srcs objs deps srcs' objs' deps' : List String}
      {o : CxxOpts}, makeMoc S L bd loc add o srcs objs deps = .ok (L', srcs', objs', deps') →
      ∃ mocs, texts loc "qt_moc" = .ok mocs ∧ srcs' = srcs ++ buildPathsS (pathsOf S mocs) "h.cxx" none bd ∧
        objs' = objs ++ buildPathsS (pathsOf S mocs) "h.cxx.o" none bd ∧
        deps' = deps ++ buildPathsS (pathsOf S mocs) "h.cxx.d" none bd := by
    intro L L' bd loc add srcs objs deps srcs' objs' deps' o h
    unfold makeMoc at h
    simp only [bind, Except.bind] at h
    split at h
    · cases h
    · rename_i mocs hm
      refine ⟨mocs, hm, ?_⟩
      split at h
      · split at h
        · cases h
        · cases h
          exact ⟨rfl, rfl, rfl⟩
      · rename_i hlen
        have : mocs = [] := by simpa using hlen
        subst this
        cases h
        simp [pathsOf, buildPathsS_nil]
  have hhdr : ∀ {bd : String} {pairs : List Val} {loc loc' : Opts}, headerPath bd pairs loc = .ok loc' →
      ∀ k, k ≠ "include_paths" → loc'.get k = loc.get k := by
    intro bd pairs loc loc' h k hk
    unfold headerPath at h
    simp only [bind, Except.bind] at h
    split at h
    · split at h
      · cases h
      · cases h; exact hset _ _ _ hk
    · cases h; rfl
  unfold makeObjects at h
  simp only [bind, Except.bind] at h
  split at h
  · cases h
  · rename_i bd hbd
    split at h
    · cases h
    · rename_i pairs hpairs
      split at h
      · cases h
      · rename_i loc1 h1
        split at h
        · cases h
        · rename_i r2 h2
          split at h
          · cases h
          · rename_i L3 h3
            split at h
            · cases h
            · rename_i depends h4
              split at h
              · cases h
              · rename_i srcs h5
                split at h
                · cases h
                · rename_i o1 h6
                  split at h
                  · cases h
                  · rename_i r7 h7
                    obtain ⟨L7, loc7, add7, o7⟩ := r7
                    simp only at h
                    split at h
                    · cases h
                    · rename_i r8 h8
                      obtain ⟨L8, srcs8, objs8, deps8⟩ := r8
                      simp only at h
                      split at h
                      · cases h
                      · rename_i L9 h9
                        split at h
                        · cases h
                        · rename_i extra h10
                          split at h
                          · cases h
                          · rename_i L11 h11
                            cases h
                            obtain ⟨e1, e2⟩ := hui h6 h7
                            obtain ⟨mocs, e3, rfl, rfl, rfl⟩ := hmoc h8
                            have e4 := hhdr h1
                            have e5 : ∀ k, k ≠ "include_paths" → R.get k = loc.get k :=
                              fun k hk => (e2 k hk).trans (e4 k hk)
                            refine ⟨bd, srcs, mocs, extra, o7, add7, L8, L9, hbd, ?_, ?_, ?_, rfl, e5, e1, h9, h11⟩
                            · rw [← h5]; exact (htexts (e4 "sources" (by decide))).symm
                            · rw [← e3]; exact (htexts (e5 "qt_moc" (by decide))).symm
                            · rw [← h10]; exact (htexts (e5 "objects" (by decide))).symm

theorem prepareTargets_ok {n : String} {R : Opts}
    (h : prepareTargets S tc fuel steps key lib L n impl [] = .ok ((lib', L'), b, R)) :
    ∃ depth, S.lim = depth + 1 ∧
      modmake S tc fuel steps key (depth + 1) (lib, L) n impl (setDefaults tc []) = .ok ((lib', L'), b, R) := by
  have h0 : mkOptions tc [] = .ok [] := rfl
  unfold prepareTargets at h
  simp only [h0, bind, Except.bind] at h
  cases hl : S.lim with
  | zero => rw [hl, modmake] at h; cases h
  | succ k => rw [hl] at h; exact ⟨k, rfl, h⟩

theorem defaults_get (l : Dict String Field) : ∀ (o : Opts) (k : String), o.get k = none →
    (l.foldl (fun o p => if o.has p.1 then o else o.set p.1 p.2.default) o).get k = (l.get k).map (·.default) := by
  have hkeep : ∀ (l : Dict String Field) (o : Opts) (k : String) (v : Val), o.get k = some v →
      (l.foldl (fun o p => if o.has p.1 then o else o.set p.1 p.2.default) o).get k = some v := by
    intro l
    induction l with
    | nil => intro o k v h; exact h
    | cons p l ih =>
      intro o k v h
      rw [List.foldl_cons]
      apply ih
      split
      · exact h
      · rename_i hh
        rw [Dict.get_set_ne]
        · exact h
        · rintro rfl
          simp [Dict.has, h] at hh
  induction l with
  | nil => intro o k h; exact h
  | cons p l ih =>
    intro o k h
    rw [List.foldl_cons]
    obtain ⟨q, f⟩ := p
    by_cases e : q = k
    · subst e
      have hh : ¬ (o.has q = true) := by simp [Dict.has, h]
      rw [if_neg hh, hkeep _ _ _ f.default (by rw [Dict.get_set_self])]
      simp [Dict.get]
    · have h1 : (Dict.get ((q, f) :: l) k) = Dict.get l k := by simp [Dict.get, e]
      rw [h1]
      apply ih
      split
      · exact h
      · rw [Dict.get_set_ne _ _ e]; exact h

theorem base_get (tc : Toolchain) : (setDefaults tc []).get "modules" = some (.list []) ∧
    (setDefaults tc []).get "type" = some (.str "objects") ∧ (setDefaults tc []).get "target" = some (.str "target") ∧
    (setDefaults tc []).get "builddir" = some (.str "build") ∧ (setDefaults tc []).get "sources" = some (.list []) := by
  have h : ∀ k, (setDefaults tc []).get k = ((table tc).get k).map (·.default) := fun k => defaults_get _ [] k rfl
  refine ⟨?_, ?_, ?_, ?_, ?_⟩ <;> rw [h] <;> rfl

/-- what the final options say about a module that was just declared -/
theorem finalOpts_task {lib1 : Lib} {n i : String} {kw loc : Opts} {o : Nat} (hg : lib1.get n none = .ok (lib1, o))
    (hm : IsModule (lib1.obj o) n i script kw)
    (h : finalOpts tc S.env.home fuel steps key lib1 n none (setDefaults tc []) = .ok (lib', loc)) :
    (∀ t, kw.get "type" = some (.str t) → loc.get "type" = some (.str t)) ∧
    (∀ t, kw.get "target" = some (.str t) → loc.get "target" = some (.str t)) ∧
    (∀ t, kw.get "builddir" = some (.str t) → loc.get "builddir" = some (.str t)) ∧
    (kw.get "builddir" = none → loc.get "builddir" = some (.str "build")) ∧
    (∀ l, kw.get "modules" = some (.list l) → ∃ l', loc.get "modules" = some (.list (l ++ l'))) := by
  obtain ⟨L1, o', own, v, l, L2, incs, mods, hg', -, hown, -, -, -, -, hf⟩ := C81_final h
  rw [hg] at hg'
  cases hg'
  obtain ⟨c1, c2, -⟩ := C79_own hown
  obtain ⟨d1, d2, -⟩ := C51_include hf
  obtain ⟨b1, b2, b3, b4, -⟩ := base_get tc
  have hgiven : ∀ k, k ≠ "__script__" → k ≠ "__dir__" → ∀ w, kw.get k = some w →
      given (lib1.obj o).opts k = w := by
    intro k h1 h2 w hw
    rw [given, hm.opts k h1 h2, hw]; rfl
  refine ⟨fun t ht => ?_, fun t ht => ?_, fun t ht => ?_, fun ht => ?_, fun l ht => ?_⟩
  · rw [d1 "type" (by simp), c2 "type" (by simp) (by rw [b2]; simp), orElse,
      hgiven "type" (by decide) (by decide) _ ht]
  · rw [d1 "target" (by simp), c1 "target" (by simp) _ b3, orElse, hgiven "target" (by decide) (by decide) _ ht]
  · rw [d1 "builddir" (by simp), c1 "builddir" (by simp) _ b4, orElse, hgiven "builddir" (by decide) (by decide) _ ht]
  · rw [d1 "builddir" (by simp), c1 "builddir" (by simp) _ b4, orElse, given, hm.opts "builddir" (by decide) (by decide), ht]
    rfl
  · have h1 : own.get "modules" = some (.list l) := by
      rw [c2 "modules" (by simp) (by rw [b1]; simp), orElse, hgiven "modules" (by decide) (by decide) _ ht]
    obtain ⟨ls, _, h2⟩ := d2 "modules" (by simp) _ h1
    exact ⟨_, h2⟩

theorem taskOpts_get {k : String} (h1 : k ≠ "type") (h2 : k ≠ "target") :
    (taskOpts name type target kwargs).get k = kwargs.get k := by
  unfold taskOpts
  split <;> simp [Dict.get, Ne.symm h1, Ne.symm h2]

theorem taskOpts_type : (taskOpts name type target kwargs).get "type" = some (.str type) := by
  unfold taskOpts
  split <;> rfl

theorem taskOpts_target (h : type ≠ "objects") :
    (taskOpts name type target kwargs).get "target" = some (.str (target.getD name)) := by
  unfold taskOpts
  rw [if_pos h]
  rfl

/-! ### C89 -/

/-- **C89** is false: a call of `application`, `library` or `objects` that names submodules in the option `modules` never
succeeds, whatever the submodules are. -/
theorem C89_violated {l : List Val} (hd : impl = none ∨ default = true) (hm : kwargs.get "modules" = some (.list l))
    (hl : l ≠ []) : ∀ r, task S tc fuel steps key lib L script name target impl default type kwargs ≠ .ok r := by
  rintro ⟨⟨lib', L'⟩, b⟩ h
  obtain ⟨lib1, L1, b1, R, h1, h2, h3⟩ := task_ok h
  obtain ⟨o, hg, hmod⟩ := module_lookup hd h1
  obtain ⟨depth, _, h4⟩ := prepareTargets_ok h2
  obtain ⟨lib2, loc, L2, objs, v, subs, L3, res, h5, h6, h7, h8, h9, _, h10⟩ := modmake_ok h4
  obtain ⟨ft, _, _, _, fm⟩ := finalOpts_task hg hmod h5
  obtain ⟨l', hml⟩ := fm l (by rw [taskOpts_get (by decide) (by decide)]; exact hm)
  obtain ⟨_, _, _, _, _, _, _, _, _, _, _, _, _, hR, _, _, _⟩ := makeObjects_ok h6
  rw [hR "modules" (by decide), hml] at h7
  cases h7
  cases h8
  have hmem : none ∈ objs.map some ++ res := by
    rw [h9, List.mem_append]
    right
    rw [List.mem_replicate]
    refine ⟨?_, rfl⟩
    cases l with
    | nil => exact absurd rfl hl
    | cons a l => simp
  obtain ⟨t, ht, h11⟩ := finishTarget_ok h10
  have ht' : t = type := by
    have := ft type taskOpts_type
    unfold text at ht
    rw [hR "type" (by decide), this] at ht
    cases ht; rfl
  subst ht'
  rcases h11 with ⟨_, _, _, srcs, _, _, hs, _⟩ | ⟨ho, _, rfl⟩
  · exact allStrings_none hmem srcs hs
  · rcases h3 with ⟨hne, _⟩ | ⟨_, lst, ts, hb, hs, _⟩
    · exact hne ho
    · cases hb
      exact allStrings_none hmem ts hs

/-- C60, the part that holds: with `default=True` what is built is the implementation of the call: it is registered under
the name given as `impl`, and it is the module whose options the build starts from. -/
theorem C60_partial {i : String}
    (h : task S tc fuel steps key lib L script name target (some i) true type kwargs = .ok ((lib', L'), b)) :
    ∃ lib1 lib2 o loc, IsModule (lib1.obj o) (taskModule name type) i script (taskOpts name type target kwargs) ∧
      lib1.get (taskModule name type) none = .ok (lib1, o) ∧
      finalOpts tc S.env.home fuel steps key lib1 (taskModule name type) none (setDefaults tc []) = .ok (lib2, loc) := by
  obtain ⟨lib1, L1, b1, R, h1, h2, -⟩ := task_ok h
  obtain ⟨o, hg, hmod⟩ := module_lookup (Or.inr rfl) h1
  obtain ⟨depth, -, h4⟩ := prepareTargets_ok h2
  obtain ⟨lib2, loc, -, -, -, -, -, -, h5, -⟩ := modmake_ok h4
  exact ⟨lib1, lib2, o, loc, hmod, hg, h5⟩

/-- C89, the part that holds: a call that returns had no submodules to build, in its own options or in those of the modules
it includes, so no program is registered that lacks them.  (`C90_linked` says what is registered then.) -/
theorem C89_partial (hd : impl = none ∨ default = true)
    (h : task S tc fuel steps key lib L script name target impl default type kwargs = .ok ((lib', L'), b)) :
    ∃ lib1 lib2 loc v, lib.module script (taskModule name type) impl default (taskOpts name type target kwargs) = .ok lib1 ∧
      finalOpts tc S.env.home fuel steps key lib1 (taskModule name type) none (setDefaults tc []) = .ok (lib2, loc) ∧
      loc.get "modules" = some v ∧ v.iter = .ok [] := by
  obtain ⟨lib1, L1, b1, R, h1, h2, h3⟩ := task_ok h
  obtain ⟨o, hg, hmod⟩ := module_lookup hd h1
  obtain ⟨depth, _, h4⟩ := prepareTargets_ok h2
  obtain ⟨lib2, loc, L2, objs, v, subs, L3, res, h5, h6, h7, h8, h9, _, h10⟩ := modmake_ok h4
  obtain ⟨ft, -⟩ := finalOpts_task hg hmod h5
  obtain ⟨_, _, _, _, _, _, _, _, _, _, _, _, _, hR, _, _, _⟩ := makeObjects_ok h6
  rw [hR "modules" (by decide)] at h7
  refine ⟨lib1, lib2, loc, v, h1, h5, h7, ?_⟩
  cases subs with
  | nil => exact h8
  | cons a l =>
    exfalso
    have hmem : none ∈ objs.map some ++ res := by rw [h9]; simp
    obtain ⟨t, ht, h11⟩ := finishTarget_ok h10
    rcases h11 with ⟨_, _, _, srcs, _, _, hs, _⟩ | ⟨ho, _, rfl⟩
    · exact allStrings_none hmem srcs hs
    · rcases h3 with ⟨hne, _, rfl⟩ | ⟨_, lst, ts, hb, hs, _⟩
      · have := ft type taskOpts_type
        unfold text at ht
        rw [hR "type" (by decide), this] at ht
        cases ht
        exact hne ho
      · cases hb
        exact allStrings_none hmem ts hs

/-! ### C90 -/

/-- the types of modules that are linked, and what the command for them is -/
inductive Linked : String → (String → List String → CxxOpts → Except Err String) → Prop
  | application : Linked "application" executableCommand
  | shared : Linked "shared_library" dynlibCommand
  | static : Linked "static_library" statlibCommand

theorem linked_rule {t : String} {rule : String → List String → CxxOpts → Except Err String} (h : Linked t rule) :
    ruleOf t = rule ∧ t ≠ "objects" := by
  cases h <;> exact ⟨rfl, by decide⟩

/-- what a list of paths and patterns stands for: patterns are replaced by the files found, in their place -/
inductive Expanded (E : Env) : List String → List String → Prop
  | nil : Expanded E [] []
  | path {s : String} {l r : List String} : '*' ∉ s.toList → Expanded E l r → Expanded E (s :: l) (s :: r)
  | pattern {s : String} {l r : List String} : '*' ∈ s.toList → Expanded E l r → Expanded E (s :: l) (E.glob s ++ r)

theorem pathsOf_expanded (S : Site) (l : List String) : Expanded S.env l (pathsOf S l) := by
  induction l with
  | nil => exact .nil
  | cons s l ih =>
    unfold pathsOf at ih ⊢
    rw [List.flatMap_cons]
    split
    · exact .pattern (by assumption) ih
    · exact .path (by assumption) ih

/-- **C90**: `application`, `shared_library` and `static_library` register the result: a target for the file `target`
(`name` if it is not given), which depends on the object of every source of the final options, in the order of the sources,
on the objects made from `qt_moc` and the additional objects (where patterns are replaced by the files found), and whose command is the linker call for exactly these
objects.  `R` are the final options (C81 says where they come from).  The sources are registered as C57 says. -/
theorem C90_linked {rule : String → List String → CxxOpts → Except Err String} (hty : Linked type rule)
    (hd : impl = none ∨ default = true)
    (h : task S tc fuel steps key lib L script name target impl default type kwargs = .ok ((lib', L'), b)) :
    ∃ lib1 o loc R srcs mocs extra bd opts x cmd,
      IsModule (lib1.obj o) (taskModule name type) (impl.getD "__default__") script (taskOpts name type target kwargs) ∧
      lib1.get (taskModule name type) none = .ok (lib1, o) ∧
      finalOpts tc S.env.home fuel steps key lib1 (taskModule name type) none (setDefaults tc []) = .ok (lib', loc) ∧
      (∀ k, k ≠ "include_paths" → R.get k = loc.get k) ∧
      texts R "sources" = .ok srcs ∧ texts R "qt_moc" = .ok mocs ∧ texts R "objects" = .ok extra ∧
      text R "builddir" = .ok bd ∧ cxxOptions S.env.home R = .ok opts ∧
      Expanded S.env srcs (pathsOf S srcs) ∧ Expanded S.env mocs (pathsOf S mocs) ∧
      b = .target x ∧ L'.m.kind x = .file ∧ (L'.m.reg.obj x).tgt = S.env.canon (target.getD name) ∧
      Core.Resolves S.env.canon L'.m.reg (S.env.canon (target.getD name)) x ∧
      (∀ p ∈ objsOf S srcs mocs bd ++ extra, '*' ∉ p.toList → p ∈ (L'.m.reg.obj x).deps) ∧
      rule (S.env.canon (target.getD name)) (objsOf S srcs mocs bd ++ extra) opts = .ok cmd ∧ L'.cmd x = some cmd ∧
      ∃ La Lb adddeps, linkObjects S La (srcsOf S srcs mocs bd) (objsOf S srcs mocs bd) (depsOf S srcs mocs bd) opts
        adddeps = .ok Lb := by
  obtain ⟨hrule, hno⟩ := linked_rule hty
  obtain ⟨lib1, L1, b1, R, h1, h2, h3⟩ := task_ok h
  obtain ⟨o, hg, hmod⟩ := module_lookup hd h1
  obtain ⟨depth, _, h4⟩ := prepareTargets_ok h2
  obtain ⟨lib2, loc, L2, objs, v, subs, L3, res, h5, h6, h7, h8, h9, h9', h10⟩ := modmake_ok h4
  obtain ⟨ft, ftg, _, _, fm⟩ := finalOpts_task hg hmod h5
  obtain ⟨bd, srcs, mocs, extra, opts, adddeps, La, Lb, e1, e2, e3, e4, rfl, hR, e5, e6, e7⟩ := makeObjects_ok h6
  have htx : ∀ k, k ≠ "include_paths" → text R k = text loc k ∧ texts R k = texts loc k := by
    intro k hk
    unfold text texts
    rw [hR k hk]
    exact ⟨rfl, rfl⟩
  obtain ⟨t, ht, h11⟩ := finishTarget_ok h10
  have ht' : t = type := by
    have := ft type taskOpts_type
    unfold text at ht
    rw [hR "type" (by decide), this] at ht
    cases ht; rfl
  subst ht'
  rcases h3 with ⟨_, rfl, rfl⟩ | ⟨ho, _⟩
  · rcases h11 with ⟨_, opts', tgt, srcs', f1, f2, f3, f4, f5⟩ | ⟨ho, _⟩
    · rw [e5] at f1
      cases f1
      have hsubs : subs = [] := by
        cases subs with
        | nil => rfl
        | cons a l =>
          exact absurd f3 (allStrings_none (by rw [h9]; simp) _)
      obtain ⟨rfl, rfl⟩ := h9' hsubs
      subst hsubs
      rw [show res = [] from h9, List.append_nil, allStrings_some] at f3
      cases f3
      have htg : tgt = target.getD name := by
        have := ftg _ (taskOpts_target hno)
        unfold text at f2
        rw [hR "target" (by decide), this] at f2
        cases f2; rfl
      subst htg
      unfold addFile at f4
      simp only [bind, Except.bind] at f4
      split at f4
      · cases f4
      · rename_i cmd hc
        split at f4
        · cases f4
        · rename_i r hr
          obtain ⟨d, t', ds⟩ := r
          cases f4
          obtain ⟨_, rfl, hds, _⟩ := fileInit_grow _ _ _ _ _ _ _ _ (liftE_ok hr)
          refine ⟨lib1, o, loc, R, srcs, mocs, extra, bd, opts, d.reg.next, cmd, hmod, hg, h5, hR, ?_, ?_, ?_, ?_, e5, pathsOf_expanded _ _,
            pathsOf_expanded _ _, f5,            by simp [MReg.add], by simp [MReg.add, Core.add, makeObj], ?_, ?_, ?_, by simp, La, Lb, adddeps, e6⟩
          · rw [(htx "sources" (by decide)).2]; exact e2
          · rw [(htx "qt_moc" (by decide)).2]; exact e3
          · rw [(htx "objects" (by decide)).2]; exact e4
          · rw [(htx "builddir" (by decide)).1]; exact e1
          · exact add_self (ob := makeObj (S.env.canon (target.getD name)) ds)
          · intro p hp hstar
            simp only [MReg.add, Core.add, makeObj, if_true]
            rw [hds]
            exact mem_globs (List.mem_append_left _ hp) hstar
          · rw [← hrule]; exact hc
    · exact absurd ho hno
  · exact absurd ho hno

/-! ### Cases -/

def taskKw : Opts := [("sources", .list [.str "a.c", .str "b.c"]), ("builddir", .str "/b")]

def taskLib : Lib :=
  match Lib.empty.module "/s/l.py" "app__module" none false (taskOpts "app" "application" (some "/b/app") taskKw) with
  | .ok l => l
  | .error _ => Lib.empty

def taskR : Opts :=
  match merge stdTools id .merge (setDefaults stdTools []) (taskLib.obj 0).opts with
  | .ok r => r
  | .error _ => []

theorem taskDemo_opts : finalOpts stdTools id 10 10 (fun _ => 0) taskLib "app__module" none (setDefaults stdTools []) =
    .ok (taskLib, taskR) := by
  have hc : Modules.collect 10 10 taskLib (fun _ => 0) 0 = .ok (taskLib, []) := by
    have h : ((taskLib.obj 0).opts.has "mdepends") = false := rfl
    unfold Modules.collect Modules.collectIf
    simp [h, Modules.collectLoop, bind, Except.bind, pure, Except.pure]
  exact finalOpts_of (L1 := taskLib) rfl rfl rfl rfl rfl rfl hc rfl

def isOk {α : Type} : Except Err α → Bool
  | .ok _ => true
  | .error _ => false

theorem isOk_iff {α : Type} {x : Except Err α} : isOk x = true ↔ ∃ r, x = .ok r := by
  cases x <;> simp [isOk]

def demoReg : LReg := ⟨licantReg, fun _ => false, fun _ => none⟩

/-- the hypotheses of `C90_linked` hold for `application("app", target="/b/app", sources=["a.c", "b.c"], builddir="/b")` in
the script `/s/l.py`, in an empty library -/
example : (∃ r, task demoSite stdTools 10 10 (fun _ => 0) Lib.empty demoReg "/s/l.py" "app" (some "/b/app") none false
    "application" taskKw = .ok r) ∧ Linked "application" executableCommand := by
  refine ⟨isOk_iff.1 ?_, .application⟩
  have h1 : Lib.empty.module "/s/l.py" "app__module" none false (taskOpts "app" "application" (some "/b/app") taskKw) =
    .ok taskLib := rfl
  have h2 : ∃ r, modmake demoSite stdTools 10 10 (fun _ => 0) 50 (taskLib, demoReg) "app__module" none (setDefaults stdTools []) =
      .ok r := by
    apply isOk_iff.1
    rw [modmake]
    have : demoSite.env.home = id := rfl
    simp only [this, taskDemo_opts, bind, Except.bind]
    decide +kernel
  obtain ⟨⟨⟨a, c⟩, d, e⟩, h2⟩ := h2
  apply isOk_iff.2
  refine ⟨((a, c), d), ?_⟩
  unfold task prepareTargets
  have h3 : mkOptions stdTools [] = .ok [] := rfl
  have h4 : ([("type", Val.str "application"), ("target", .str ((some "/b/app").getD "app"))] ++ taskKw : Opts) =
    taskOpts "app" "application" (some "/b/app") taskKw := rfl
  have h5 : demoSite.lim = 50 := rfl
  have h6 : "app" ++ "__module" = "app__module" := by decide
  rw [if_pos (by decide)]
  simp only [h4, h6, h1, h3, h5, h2, bind, Except.bind]
  rfl

/-- the library after the call with an implementation -/
def fastLib : Lib :=
  match Lib.empty.module "/s/l.py" "app__module" (some "fast") true (taskOpts "app" "application" (some "/b/app") taskKw) with
  | .ok l => l
  | .error _ => Lib.empty

/-- the hypothesis of `C60_partial` holds for the same call with `impl="fast", default=True` -/
example : ∃ r, task demoSite stdTools 10 10 (fun _ => 0) Lib.empty demoReg "/s/l.py" "app" (some "/b/app") (some "fast")
    true "application" taskKw = .ok r := by
  refine isOk_iff.1 ?_
  have h0 : ∃ R, merge stdTools id .merge (setDefaults stdTools []) (fastLib.obj 0).opts = .ok R ∧
      finalOpts stdTools id 10 10 (fun _ => 0) fastLib "app__module" none (setDefaults stdTools []) = .ok (fastLib, R) ∧
      R = taskR := by
    have hc : Modules.collect 10 10 fastLib (fun _ => 0) 0 = .ok (fastLib, []) := by
      have h : ((fastLib.obj 0).opts.has "mdepends") = false := rfl
      unfold Modules.collect Modules.collectIf
      simp [h, Modules.collectLoop, bind, Except.bind, pure, Except.pure]
    exact ⟨_, rfl, finalOpts_of (L1 := fastLib) rfl rfl rfl rfl rfl rfl hc rfl, rfl⟩
  obtain ⟨R, -, h0, rfl⟩ := h0
  have h1 : Lib.empty.module "/s/l.py" "app__module" (some "fast") true
    (taskOpts "app" "application" (some "/b/app") taskKw) = .ok fastLib := rfl
  have h2 : ∃ r, modmake demoSite stdTools 10 10 (fun _ => 0) 50 (fastLib, demoReg) "app__module" none
      (setDefaults stdTools []) = .ok r := by
    apply isOk_iff.1
    rw [modmake]
    have : demoSite.env.home = id := rfl
    simp only [this, h0, bind, Except.bind]
    decide +kernel
  obtain ⟨⟨⟨a, c⟩, d, e⟩, h2⟩ := h2
  apply isOk_iff.2
  refine ⟨((a, c), d), ?_⟩
  unfold task prepareTargets
  have h3 : mkOptions stdTools [] = .ok [] := rfl
  have h4 : ([("type", Val.str "application"), ("target", .str ((some "/b/app").getD "app"))] ++ taskKw : Opts) =
    taskOpts "app" "application" (some "/b/app") taskKw := rfl
  have h5 : demoSite.lim = 50 := rfl
  have h6 : "app" ++ "__module" = "app__module" := by decide
  rw [if_pos (by decide)]
  simp only [h4, h6, h1, h3, h5, h2, bind, Except.bind]
  rfl

/-- the hypotheses of `C60_violated` (a new module) and of `C89_violated` (a submodule object) -/
example : demoSite.lim ≠ 0 ∧ Lib.empty.defimpls.get (taskModule "app" "application") = none ∧
    Dict.get ([("modules", .list [.sub "x" none])] : Opts) "modules" = some (.list [.sub "x" none]) := ⟨by decide, rfl, rfl⟩

end Licant.Cxx
