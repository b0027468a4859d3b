/-
What is left of a library registry if licant-libs is killed (C140) or called several times at once (C141).
-/
import Verif.Misc.Libs
import Verif.Misc.Json

set_option autoImplicit false

namespace Licant.Misc.Libs
open Licant.Py Licant.Py.Path

/-! ### model -/

/-- The world of a call if the registry files have the given texts (`none`: no such file). -/
def withText (W : World) (file : Bool → Option Str) : World := { W with stored := fun u => (file u).map Json.loads }

/-- the texts of the registry files if that of `u` is `t` -/
def put (file : Bool → Option Str) (u : Bool) (t : Option Str) : Bool → Option Str := fun v => if v = u then t else file v

/-- licant_libs.py:35-42, 83-85: the text of the registry file at some moment of the call `a`: as before; or, after `open(…, "w")`, which
makes the file empty, any part of the new text from its beginning on, up to the whole text. -/
inductive Moment (W : World) (file : Bool → Option Str) (a : Args) : Option Str → Prop
  | before : Moment W file a (file a.user)
  | writing {r : Registry} {p : Str} : (utility (withText W file) a).2 = some r → p <+: Json.dumps r → Moment W file a (some p)

/-- libs.py:26-35 `init`, with `merge_two_dicts` (16-19): the libraries that `include` knows; `none` is an exception.  `g` and `l` are the texts of
the system's and of the user's file. -/
def initLibs (g l : Option Str) : Option Registry := do
  let glibs ← match g with
    | none => some []
    | some t => Json.loads t
  let llibs ← match l with
    | none => some []
    | some t => Json.loads t
  some (Dict.update glibs llibs)

/-- where a running call of licant-libs is -/
inductive Pc where
  /-- it has not read the registry yet -/
  | start
  /-- it has read the registry and computed the new one; the next step is `open(…, "w")` -/
  | ready (r : Registry)
  /-- it has written the first `off` characters -/
  | writing (r : Registry) (off : Nat)
  | ended (e : End)
deriving DecidableEq

/-- calls that run at the same time: the text of the registry file, where each call is -/
structure Together where
  file : Option Str
  pc : Nat → Pc

/-- events -/
inductive LEv where
  | read (i : Nat)
  | opn (i : Nat)
  | write (i : Nat) (k : Nat)

/-- `write` at the position `off` of a file with text `f`; a file that has become shorter is filled up with zeros -/
def overlay (f : Str) (off : Nat) (chunk : Str) : Str :=
  (f ++ List.replicate (off - f.length) (Char.ofNat 0)).take off ++ chunk ++ f.drop (off + chunk.length)

/-- One event of calls with the arguments `calls`, all about the registry `u`.
* `read i`: licant_libs.py:35-82; simplification: the file is read at one moment
* `opn i`: 85, `open(paths_file, "w")`
* `write i k`: 85, the next `k` characters are written -/
def lstep (W : World) (u : Bool) (other : Option Str) (calls : List Args) (s : Together) : LEv → Option Together
  | .read i =>
    match calls[i]?, s.pc i with
    | some a, .start =>
      let r := utility (withText W (put (fun _ => other) u s.file)) a
      some { s with pc := fun j => if j = i then (match r.2 with
        | some r => .ready r
        | none => .ended r.1) else s.pc j }
    | _, _ => none
  | .opn i =>
    match s.pc i with
    | .ready r => some { file := some [], pc := fun j => if j = i then .writing r 0 else s.pc j }
    | _ => none
  | .write i k =>
    match s.pc i with
    | .writing r off =>
      let chunk := ((Json.dumps r).drop off).take k
      some { file := some (overlay (s.file.getD []) off chunk)
             pc := fun j => if j = i then (if (Json.dumps r).length ≤ off + chunk.length then .ended .returned else .writing r (off + chunk.length)) else s.pc j }
    | _ => none

/-- the call an event belongs to -/
def LEv.call : LEv → Nat
  | .read i => i
  | .opn i => i
  | .write i _ => i

/-- executions, from the registry file `file` -/
inductive LExec (W : World) (u : Bool) (other : Option Str) (calls : List Args) (file : Option Str) : List LEv → Together → Prop
  | nil : LExec W u other calls file [] ⟨file, fun _ => .start⟩
  | snoc {tr s e s'} : LExec W u other calls file tr s → lstep W u other calls s e = some s' → LExec W u other calls file (tr ++ [e]) s'

/-! ### specification -/

/-- the file after the calls `l`, if each of them is done before the next one begins -/
def inOrder (W : World) (u : Bool) (other : Option Str) (file : Option Str) (l : List Args) : Option Str :=
  l.foldl (fun f a => match (utility (withText W (put (fun _ => other) u f)) a).2 with
    | some r => some (Json.dumps r)
    | none => f) file

/-- what a name stands for -/
def recordIn (t : Option Str) (n : Str) : Option Str := (t.bind Json.loads).bind (·.get n)

/-! ### proofs -/

theorem nodup_update {l : List (Str × Str)} : ∀ {d : Registry}, d.keys.Nodup → (Dict.update d l).keys.Nodup := by
  induction l with
  | nil => intro d h; exact h
  | cons p l ih => intro d h; exact ih (Dict.nodup_keys_set h p.1 p.2)

theorem loads_nodup {t : Str} {d : Registry} (h : Json.loads t = some d) : d.keys.Nodup := by
  unfold Json.loads at h
  split at h
  · cases h
  · split at h
    · split at h
      · cases h
      · split at h
        · split at h
          · cases h; exact List.nodup_nil
          · cases h
        · split at h
          · cases h
          · split at h
            · cases h; exact nodup_update (by simp [Dict.keys])
            · cases h
    · cases h

theorem addFound_nodup {W : World} : ∀ {fs : List Str} {d r : Registry}, d.keys.Nodup → addFound W d fs = some r → r.keys.Nodup := by
  intro fs
  induction fs with
  | nil => intro d r hd h; cases h; exact hd
  | cons f fs ih =>
    intro d r hd h
    simp only [addFound, addRecord] at h
    split at h
    · cases h
    · rename_i p hp
      split at hp
      · cases hp; exact ih (Dict.nodup_keys_set hd _ _) h
      · cases hp

/-- what is written has each name once -/
theorem utility_nodup {W : World} {file : Bool → Option Str} {a : Args} {r : Registry} (h : (utility (withText W file) a).2 = some r) :
    r.keys.Nodup := by
  have hl : ∀ d, load (withText W file) a.user = some d → d.keys.Nodup := by
    intro d hd
    unfold load withText at hd
    simp only at hd
    cases hf : file a.user with
    | none => rw [hf] at hd; cases hd; exact List.nodup_nil
    | some t =>
      rw [hf] at hd
      simp only [Option.map_some] at hd
      cases ht : Json.loads t with
      | none => rw [ht] at hd; cases hd
      | some d' => rw [ht] at hd; cases hd; exact loads_nodup ht
  unfold utility at h
  split at h
  · cases h
  · rename_i d hd
    split at h
    · cases h
    · split at h
      · cases h
      · split at h
        · cases h
        · split at h
          · cases h
          · rename_i d' hd'
            split at h
            · have hr : removed a d' = d' := by unfold removed; split <;> rfl
              simp only [hr, Option.some.injEq] at h
              subst h
              unfold added at hd'
              split at hd'
              · split at hd'
                · cases hd'; exact hl _ hd
                · unfold addRecord at hd'
                  split at hd'
                  · cases hd'; exact Dict.nodup_keys_set (hl _ hd) _ _
                  · cases hd'
              · split at hd'
                · cases hd'; exact hl _ hd
                · exact addFound_nodup (hl _ hd) hd'
              · cases hd'; exact hl _ hd
            · cases h

/-- **C140 violated**: every call of licant-libs that writes goes through a moment in which, if it is killed, all records are lost:
every later call for this registry ends with an error and writes nothing, in whatever environment and with whatever arguments, and
`include` raises in every script. -/
theorem C140_violated (W : World) (file : Bool → Option Str) (a : Args) (hw : (utility (withText W file) a).1 = .returned) :
    ∃ t, Moment W file a t ∧ (∀ n, recordIn t n = none) ∧
      (∀ (W' : World) (a' : Args), a'.user = a.user → utility (withText W' (put file a.user t)) a' = (.exit (-1), none)) ∧
      initLibs (put file a.user t false) (put file a.user t true) = none := by
  have hr : ∃ r, (utility (withText W file) a).2 = some r := by
    unfold utility at hw ⊢
    split at hw
    · cases hw
    · split at hw
      · cases hw
      · rename_i hl
        rw [if_neg hl]
        split at hw
        · cases hw
        · rename_i h2
          rw [if_neg h2]
          split at hw
          · cases hw
          · rename_i h3
            rw [if_neg h3]
            split at hw
            · cases hw
            · split at hw
              · rename_i h5
                rw [if_pos h5]
                exact ⟨_, rfl⟩
              · cases hw
  obtain ⟨r, hr⟩ := hr
  refine ⟨some [], .writing hr (by simp), fun n => rfl, fun W' a' ha => ?_, ?_⟩
  · have : load (withText W' (put file a.user (some []))) a'.user = none := by
      simp only [load, withText, put, ha, if_true]
      rfl
    simp only [utility, this]
  · have hload : Json.loads [] = none := rfl
    cases a.user with
    | true =>
      simp only [initLibs, put, if_true, Bool.false_eq_true, if_false, hload, bind, Option.bind]
      cases file false with
      | none => rfl
      | some t => cases ht : Json.loads t <;> simp [ht]
    | false => rfl

theorem get_update (d e : Registry) (hn : e.keys.Nodup) (x : Str) : (Dict.update d e).get x = (e.get x).or (d.get x) := by
  induction e generalizing d with
  | nil => simp [Dict.update]
  | cons p e ih =>
    obtain ⟨k, v⟩ := p
    simp only [Dict.keys, List.map_cons, List.nodup_cons] at hn
    have := ih (d.set k v) hn.2
    simp only [Dict.update, List.foldl_cons] at this ⊢
    rw [this, Dict.get_set]
    simp only [Dict.get]
    by_cases hk : k = x
    · subst hk
      have : Dict.get e k = none := (Dict.get_eq_none_iff e k).2 hn.1
      simp [this]
    · simp [hk]

/-- **C66**, from the files on: if the registry files were written by licant-libs, as the dictionaries `sys` and `user` (`none`: no such file), then
`include` knows exactly the libraries recorded in one of them, and the user's record wins. -/
theorem C66_files {sys user : Option Registry} (hs : ∀ r, sys = some r → r.keys.Nodup) (hu : ∀ r, user = some r → r.keys.Nodup) :
    ∃ libs, initLibs (sys.map Json.dumps) (user.map Json.dumps) = some libs ∧
      ∀ n, libs.get n = (user.bind (·.get n)).or (sys.bind (·.get n)) := by
  refine ⟨Dict.update (sys.getD []) (user.getD []), ?_, ?_⟩
  · unfold initLibs
    cases user with
    | none =>
      cases sys with
      | none => rfl
      | some r => simp only [Option.map, Json.loads_dumps (hs r rfl)]; rfl
    | some r' =>
      cases sys with
      | none => simp only [Option.map, Json.loads_dumps (hu r' rfl)]; rfl
      | some r => simp only [Option.map, Json.loads_dumps (hs r rfl), Json.loads_dumps (hu r' rfl)]; rfl
  · intro n
    have hnd : (user.getD []).keys.Nodup := by
      cases user with
      | none => exact List.nodup_nil
      | some r => exact hu r rfl
    rw [get_update _ _ hnd]
    cases user <;> cases sys <;> rfl

/-- the user has their own `geom`, the system has `geom` and `math` -/
example : initLibs (some (Json.dumps [("geom".toList, "/usr/geom".toList), ("math".toList, "/usr/math".toList)]))
      (some (Json.dumps [("geom".toList, "/home/me/geom".toList)])) =
    some [("geom".toList, "/home/me/geom".toList), ("math".toList, "/usr/math".toList)] := by
  unfold initLibs
  simp only [Json.loads_dumps (by decide : (Dict.keys [("geom".toList, "/usr/geom".toList), ("math".toList, "/usr/math".toList)]).Nodup),
    Json.loads_dumps (by decide : (Dict.keys [("geom".toList, "/home/me/geom".toList)]).Nodup)]
  decide

/-- **C140**, what holds: at whatever moment the call is killed, the file is as it was before, or is read as exactly the registry the call was
told to make, or cannot be read; it is never read as anything else.  If the call does not write, the file is as before.
Missing: files that cannot be read (`C140_violated`). -/
theorem C140_partial (W : World) (file : Bool → Option Str) (a : Args) {t : Option Str} (h : Moment W file a t) :
    t = file a.user ∨ ∃ r p, (utility (withText W file) a).2 = some r ∧ t = some p ∧
      (Json.loads p = some r ∨ Json.loads p = none) := by
  cases h with
  | before => exact .inl rfl
  | writing hr hp =>
    rename_i r p
    refine .inr ⟨r, p, hr, rfl, ?_⟩
    by_cases hd : p = Json.dumps r
    · subst hd; exact .inl (Json.loads_dumps (utility_nodup hr))
    · exact .inr (Json.loads_cut hp hd)

/-! ### several calls -/

theorem overlay_end (t : Str) (off k : Nat) (h : off ≤ t.length) :
    overlay (t.take off) off ((t.drop off).take k) = t.take (off + ((t.drop off).take k).length) := by
  have h1 : (t.take off).length = off := by simp [h]
  unfold overlay
  rw [h1, Nat.sub_self, List.replicate_zero, List.append_nil, List.take_of_length_le (Nat.le_of_eq h1)]
  rw [show (t.take off).drop (off + ((t.drop off).take k).length) = [] from List.drop_of_length_le (by rw [h1]; omega),
    List.append_nil, List.take_add]
  congr 1
  rw [List.length_take, List.take_eq_take_iff]
  omega

/-- the calls that have read the registry, in this order -/
def LEv.reads (calls : List Args) (tr : List LEv) : List Args :=
  tr.filterMap fun
    | .read i => calls[i]?
    | _ => none

/-- a call that is not in the middle -/
def Pc.Idle (p : Pc) : Prop := p = .start ∨ ∃ e, p = .ended e

/-- executions in which the calls do not overlap: whenever something happens in a call, no other call has begun and not ended -/
inductive Separately (W : World) (u : Bool) (other : Option Str) (calls : List Args) (file : Option Str) : List LEv → Together → Prop
  | nil : Separately W u other calls file [] ⟨file, fun _ => .start⟩
  | snoc {tr s e s'} : Separately W u other calls file tr s → (∀ j, j ≠ e.call → (s.pc j).Idle) → lstep W u other calls s e = some s' →
      Separately W u other calls file (tr ++ [e]) s'

theorem Separately.exec {W : World} {u : Bool} {other file : Option Str} {calls : List Args} {tr : List LEv} {s : Together}
    (h : Separately W u other calls file tr s) : LExec W u other calls file tr s := by
  induction h with
  | nil => exact .nil
  | snoc _ _ h ih => exact ih.snoc h

/-- the file while one call is running -/
def Mid (W : World) (u : Bool) (other : Option Str) (file : Option Str) (rs : List Args) (f : Option Str) : Pc → Prop
  | .ready r => ∃ B a, rs = B ++ [a] ∧ (utility (withText W (put (fun _ => other) u (inOrder W u other file B))) a).2 = some r ∧
      f = inOrder W u other file B
  | .writing r off => ∃ B a, rs = B ++ [a] ∧ (utility (withText W (put (fun _ => other) u (inOrder W u other file B))) a).2 = some r ∧
      f = some ((Json.dumps r).take off) ∧ off ≤ (Json.dumps r).length
  | _ => f = inOrder W u other file rs

theorem mid_idle {W : World} {u : Bool} {other file f : Option Str} {rs : List Args} {p : Pc} (h : Mid W u other file rs f p) (hp : p.Idle) :
    f = inOrder W u other file rs := by
  rcases hp with rfl | ⟨e, rfl⟩
  · exact h
  · exact h

theorem idle_mid {W : World} {u : Bool} {other file f : Option Str} {rs : List Args} {p : Pc} (h : f = inOrder W u other file rs) (hp : p.Idle) :
    Mid W u other file rs f p := by
  rcases hp with rfl | ⟨e, rfl⟩
  · exact h
  · exact h

theorem inOrder_snoc {W : World} {u : Bool} {other file : Option Str} (B : List Args) (a : Args) :
    inOrder W u other file (B ++ [a]) = match (utility (withText W (put (fun _ => other) u (inOrder W u other file B))) a).2 with
      | some r => some (Json.dumps r)
      | none => inOrder W u other file B := by
  unfold inOrder
  rw [List.foldl_append]
  rfl

/-- **C141**, what holds: if the calls do not overlap, then whenever no call is in the middle the file is the one that the calls made so far
give if they are done one after the other, in the order in which they have read the registry.
Missing: calls that overlap (`C141_violated`). -/
theorem C141_partial (W : World) (u : Bool) (other : Option Str) (calls : List Args) (file : Option Str) {tr : List LEv} {s : Together}
    (hx : Separately W u other calls file tr s) (hi : ∀ i, (s.pc i).Idle) :
    s.file = inOrder W u other file (LEv.reads calls tr) := by
  have key : ∃ i, (∀ j, j ≠ i → (s.pc j).Idle) ∧ Mid W u other file (LEv.reads calls tr) s.file (s.pc i) := by
    clear hi
    induction hx with
    | nil => exact ⟨0, fun _ _ => .inl rfl, rfl⟩
    | @snoc tr s e s' hx hall hst ih =>
      obtain ⟨i, h1, h2⟩ := ih
      -- the running call is that of `e`
      have h2' : Mid W u other file (LEv.reads calls tr) s.file (s.pc e.call) := by
        by_cases hie : i = e.call
        · rw [← hie]; exact h2
        · exact idle_mid (mid_idle h2 (hall i hie)) (h1 e.call (Ne.symm hie))
      refine ⟨e.call, ?_⟩
      cases e with
      | read k =>
        simp only [LEv.call] at hall h2'
        simp only [lstep] at hst
        split at hst
        · rename_i a ha hpc
          cases hst
          rw [hpc] at h2'
          have hf : s.file = inOrder W u other file (LEv.reads calls tr) := h2'
          have hrs : LEv.reads calls (tr ++ [.read k]) = LEv.reads calls tr ++ [a] := by
            simp [LEv.reads, List.filterMap_append, ha]
          refine ⟨fun j hj => by simp only [LEv.call] at hj; simp only [hj, if_false]; exact hall j hj, ?_⟩
          simp only [LEv.call, if_true, hrs]
          split
          · rename_i r hr
            exact ⟨_, a, rfl, by rw [← hf]; exact hr, hf⟩
          · rename_i hr
            show s.file = _
            rw [inOrder_snoc, ← hf, hr]
        · cases hst
      | opn k =>
        simp only [LEv.call] at hall h2'
        simp only [lstep] at hst
        split at hst
        · rename_i r hpc
          cases hst
          rw [hpc] at h2'
          obtain ⟨B, a, h3, h4, h5⟩ := h2'
          have hrs : LEv.reads calls (tr ++ [.opn k]) = LEv.reads calls tr := by simp [LEv.reads, List.filterMap_append]
          refine ⟨fun j hj => by simp only [LEv.call] at hj; simp only [hj, if_false]; exact hall j hj, ?_⟩
          simp only [LEv.call, if_true, hrs]
          exact ⟨B, a, h3, h4, by simp, by omega⟩
        · cases hst
      | write k n =>
        simp only [LEv.call] at hall h2'
        simp only [lstep] at hst
        split at hst
        · rename_i r off hpc
          cases hst
          rw [hpc] at h2'
          obtain ⟨B, a, h3, h4, h5, h6⟩ := h2'
          have hrs : LEv.reads calls (tr ++ [.write k n]) = LEv.reads calls tr := by simp [LEv.reads, List.filterMap_append]
          have hov := overlay_end (Json.dumps r) off n h6
          refine ⟨fun j hj => by simp only [LEv.call] at hj; simp only [hj, if_false]; exact hall j hj, ?_⟩
          simp only [LEv.call, if_true, hrs, h5, Option.getD_some, hov]
          split
          · rename_i hle
            show _ = inOrder _ _ _ _ _
            rw [h3, inOrder_snoc, h4, List.take_of_length_le hle]
          · rename_i hle
            exact ⟨B, a, h3, h4, rfl, by omega⟩
        · cases hst
  obtain ⟨i, _, h⟩ := key
  exact mid_idle h (hi i)

/-- Any calls can be made one after the other. -/
theorem separately_exists (W : World) (u : Bool) (other : Option Str) (calls : List Args) (file : Option Str) : ∀ n, n ≤ calls.length →
    ∃ tr s, Separately W u other calls file tr s ∧ LEv.reads calls tr = calls.take n ∧
      (∀ i < n, ∃ e, s.pc i = .ended e) ∧ ∀ i, n ≤ i → s.pc i = .start := by
  intro n
  induction n with
  | zero => intro _; exact ⟨[], _, .nil, rfl, fun i h => absurd h (by omega), fun _ _ => rfl⟩
  | succ n ih =>
    intro hn
    obtain ⟨tr, s, hx, hr, he, hs⟩ := ih (by omega)
    have hidle : ∀ j, (s.pc j).Idle := fun j => by
      by_cases hj : j < n
      · exact .inr (he j hj)
      · exact .inl (hs j (by omega))
    have ha : calls[n]? = some (calls[n]'(by omega)) := List.getElem?_eq_getElem (by omega)
    have htake : calls.take (n + 1) = calls.take n ++ [calls[n]'(by omega)] := by
      rw [List.take_add_one, ha]; rfl
    have hrd : ∀ l, (∀ e ∈ l, ∀ i, e ≠ .read i) → LEv.reads calls (tr ++ .read n :: l) = calls.take (n + 1) := by
      intro l hl
      have : l.filterMap (fun | .read i => calls[i]? | _ => none) = [] := by
        rw [List.filterMap_eq_nil_iff]
        intro e hm
        cases e with
        | read i => exact absurd rfl (hl _ hm i)
        | _ => rfl
      unfold LEv.reads at hr ⊢
      rw [List.filterMap_append, List.filterMap_cons, this, hr, htake]
      simp only [ha]
    cases hu : (utility (withText W (put (fun _ => other) u s.file)) (calls[n]'(by omega))).2 with
    | none =>
      have e1 : lstep W u other calls s (.read n) = some ⟨s.file, fun j => if j = n then
            Pc.ended (utility (withText W (put (fun _ => other) u s.file)) (calls[n]'(by omega))).1 else s.pc j⟩ := by
        simp only [lstep, ha, hs n le_rfl, hu]
      refine ⟨_, _, hx.snoc (fun j _ => hidle j) e1, hrd [] (by simp), fun i hi => ?_, fun i hi => ?_⟩
      · by_cases hin : i = n
        · simp only [hin, if_true]; exact ⟨_, rfl⟩
        · simp only [hin, if_false]; exact he i (by omega)
      · simp only [show i ≠ n by omega, if_false]; exact hs i (by omega)
    | some r =>
      have e1 : lstep W u other calls s (.read n) = some { s with pc := fun j => if j = n then .ready r else s.pc j } := by
        simp only [lstep, ha, hs n le_rfl, hu]
      have e2 : lstep W u other calls { s with pc := fun j => if j = n then .ready r else s.pc j } (.opn n) =
          some ⟨some [], fun j => if j = n then .writing r 0 else s.pc j⟩ := by
        simp only [lstep, if_true, Option.some.injEq, Together.mk.injEq, true_and]
        funext j; by_cases h : j = n <;> simp [h]
      have e3 : lstep W u other calls ⟨some [], fun j => if j = n then .writing r 0 else s.pc j⟩ (.write n (Json.dumps r).length) =
          some ⟨some (Json.dumps r), fun j => if j = n then .ended .returned else s.pc j⟩ := by
        have hfull : overlay [] 0 (((Json.dumps r).drop 0).take (Json.dumps r).length) = Json.dumps r := by simp [overlay]
        simp only [lstep, if_true, Option.getD_some, hfull, Option.some.injEq, Together.mk.injEq, true_and]
        funext j; by_cases h : j = n <;> simp [h]
      have hid : ∀ (x : Pc) (j : Nat), j ≠ n → ((fun j => if j = n then x else s.pc j) j).Idle := fun x j hj => by
        simp only [hj, if_false]; exact hidle j
      have hx3 := ((hx.snoc (e := .read n) (fun j _ => hidle j) e1).snoc (e := .opn n) (fun j hj => hid _ j hj) e2).snoc
        (e := .write n (Json.dumps r).length) (fun j hj => hid _ j hj) e3
      refine ⟨_, _, hx3, ?_, fun i hi => ?_, fun i hi => ?_⟩
      · have := hrd [.opn n, .write n (Json.dumps r).length] (by simp)
        simpa using this
      · by_cases hin : i = n
        · simp only [hin, if_true]; exact ⟨_, rfl⟩
        · simp only [hin, if_false]; exact he i (by omega)
      · simp only [show i ≠ n by omega, if_false]; exact hs i (by omega)

/-- the hypotheses of `C141_partial` are met, for any calls -/
theorem C141_all_calls (W : World) (u : Bool) (other : Option Str) (calls : List Args) (file : Option Str) :
    ∃ tr s, Separately W u other calls file tr s ∧ (∀ i, (s.pc i).Idle) ∧ s.file = inOrder W u other file calls := by
  obtain ⟨tr, s, hx, hr, he, hs⟩ := separately_exists W u other calls file calls.length le_rfl
  have hidle : ∀ i, (s.pc i).Idle := fun i => by
    by_cases hi : i < calls.length
    · exact .inr (he i hi)
    · exact .inl (hs i (by omega))
  refine ⟨tr, s, hx, hidle, ?_⟩
  rw [C141_partial W u other calls file hx hidle, hr, List.take_length]

theorem utility_add {W : World} {user : Bool} {d : Registry} {n p : Str} (hd : load W user = some d) (hw : W.writable user = true)
    (hx : W.exist (W.abspath p) = true) : utility W ⟨user, false, false, [n, p]⟩ = (.returned, some (d.set n (W.abspath p))) := by
  simp [utility, hd, added, addRecord, hx, hw, removed]

theorem perm_pair {α : Type} {a b : α} {l : List α} (h : l.Perm [a, b]) : l = [a, b] ∨ l = [b, a] := by
  match l, h with
  | [x, y], h =>
    have hx : x ∈ [a, b] := h.subset (by simp)
    have hx' : x = a ∨ x = b := by simpa using hx
    rcases hx' with rfl | rfl
    · have := (List.perm_cons _).1 h
      rw [List.perm_singleton] at this
      exact .inl (by rw [this])
    · have h2 : [y, x].Perm [a, x] := (List.Perm.swap x y []).trans h
      have h3 := (h2.trans (List.Perm.swap x a [])).symm
      have h4 : [x, a].Perm [x, y] := h3.trans (List.Perm.swap x y [])
      have := (List.perm_cons _).1 h4
      rw [List.perm_singleton] at this
      exact .inr (by rw [List.cons.injEq] at this; rw [this.1])
  | [], h => exact absurd h.length_eq (by simp)
  | [_], h => exact absurd h.length_eq (by simp)
  | _ :: _ :: _ :: _, h => exact absurd h.length_eq (by simp)

/-- two calls that add records, one after the other -/
theorem inOrder_two {W : World} {u : Bool} {other file : Option Str} {d : Registry} {n1 p1 n2 p2 : Str}
    (hd : load (withText W (put (fun _ => other) u file)) u = some d) (hw : W.writable u = true)
    (h1 : W.exist (W.abspath p1) = true) (h2 : W.exist (W.abspath p2) = true) (n : Str) :
    recordIn (inOrder W u other file [⟨u, false, false, [n1, p1]⟩, ⟨u, false, false, [n2, p2]⟩]) n =
      Dict.get ((d.set n1 (W.abspath p1)).set n2 (W.abspath p2)) n := by
  have hu1 := utility_add (n := n1) hd hw h1
  have hn1 := utility_nodup (W := W) (a := ⟨u, false, false, [n1, p1]⟩) (congrArg Prod.snd hu1)
  have hd2 : load (withText W (put (fun _ => other) u (some (Json.dumps (d.set n1 (W.abspath p1)))))) u = some (d.set n1 (W.abspath p1)) := by
    have hl : Json.loads (Json.dumps (d.set n1 (W.abspath p1))) = some (d.set n1 (W.abspath p1)) := Json.loads_dumps hn1
    simp [load, withText, put, hl]
  have hu2 := utility_add (n := n2) hd2 hw h2
  have hn2 := utility_nodup (W := W) (a := ⟨u, false, false, [n2, p2]⟩) (congrArg Prod.snd hu2)
  have hl2 := Json.loads_dumps hn2
  have e1 : inOrder W u other file [⟨u, false, false, [n1, p1]⟩] = some (Json.dumps (d.set n1 (W.abspath p1))) := by
    rw [show [(⟨u, false, false, [n1, p1]⟩ : Args)] = [] ++ [⟨u, false, false, [n1, p1]⟩] from rfl, inOrder_snoc]
    rw [show inOrder W u other file [] = file from rfl, hu1]
    rfl
  rw [show [(⟨u, false, false, [n1, p1]⟩ : Args), ⟨u, false, false, [n2, p2]⟩] =
    [⟨u, false, false, [n1, p1]⟩] ++ [⟨u, false, false, [n2, p2]⟩] from rfl, inOrder_snoc, e1, hu2]
  show recordIn (some (Json.dumps ((d.set n1 (W.abspath p1)).set n2 (W.abspath p2)))) n = _
  simp only [recordIn, Option.bind_some]
  erw [hl2]
  rfl

/-- **C141 violated**: for every registry, and every two calls that add records with different names: they can run at the same time in such a
way that both return, and the record that the first one was told to add is not there, although it is there after the two calls one after the other,
in either order. -/
theorem C141_violated (W : World) (u : Bool) (other file : Option Str) {d : Registry} {n1 p1 n2 p2 : Str} (hn : n1 ≠ n2)
    (hd : load (withText W (put (fun _ => other) u file)) u = some d) (hw : W.writable u = true)
    (h1 : W.exist (W.abspath p1) = true) (h2 : W.exist (W.abspath p2) = true) :
    ∃ tr s, LExec W u other [⟨u, false, false, [n1, p1]⟩, ⟨u, false, false, [n2, p2]⟩] file tr s ∧
      s.pc 0 = .ended .returned ∧ s.pc 1 = .ended .returned ∧
      recordIn s.file n1 = d.get n1 ∧ recordIn s.file n2 = some (W.abspath p2) ∧
      ∀ order : List Args, order.Perm [⟨u, false, false, [n1, p1]⟩, ⟨u, false, false, [n2, p2]⟩] →
        recordIn (inOrder W u other file order) n1 = some (W.abspath p1) := by
  have hu1 := utility_add (n := n1) hd hw h1
  have hu2 := utility_add (n := n2) hd hw h2
  have hnd := utility_nodup (W := W) (a := ⟨u, false, false, [n2, p2]⟩) (congrArg Prod.snd hu2)
  let r1 := d.set n1 (W.abspath p1)
  let r2 := d.set n2 (W.abspath p2)
  have hu1' : utility (withText W (put (fun _ => other) u file)) ⟨u, false, false, [n1, p1]⟩ = (.returned, some r1) := hu1
  have hu2' : utility (withText W (put (fun _ => other) u file)) ⟨u, false, false, [n2, p2]⟩ = (.returned, some r2) := hu2
  have hfull : ∀ (r : Registry), overlay [] 0 (((Json.dumps r).drop 0).take (Json.dumps r).length) = Json.dumps r := by
    intro r; simp [overlay]
  let calls : List Args := [⟨u, false, false, [n1, p1]⟩, ⟨u, false, false, [n2, p2]⟩]
  let pcs (x y : Pc) : Nat → Pc := fun j => if j = 0 then x else if j = 1 then y else .start
  have e0 : lstep W u other calls ⟨file, fun _ => .start⟩ (.read 0) = some ⟨file, pcs (.ready r1) .start⟩ := by
    simp only [lstep, calls, List.getElem?_cons_zero, hu1', Option.some.injEq, Together.mk.injEq, true_and]
    funext j; by_cases h : j = 0 <;> simp [pcs, h]
  have e1 : lstep W u other calls ⟨file, pcs (.ready r1) .start⟩ (.read 1) = some ⟨file, pcs (.ready r1) (.ready r2)⟩ := by
    simp only [lstep, calls, List.getElem?_cons_succ, List.getElem?_cons_zero]
    simp only [show pcs (.ready r1) .start 1 = .start from rfl, hu2', Option.some.injEq, Together.mk.injEq, true_and]
    funext j; by_cases h : j = 1
    · subst h; rfl
    · simp [pcs, h]
  have e2 : lstep W u other calls ⟨file, pcs (.ready r1) (.ready r2)⟩ (.opn 0) = some ⟨some [], pcs (.writing r1 0) (.ready r2)⟩ := by
    simp only [lstep, show pcs (.ready r1) (.ready r2) 0 = .ready r1 from rfl, Option.some.injEq, Together.mk.injEq, true_and]
    funext j; by_cases h : j = 0
    · subst h; rfl
    · simp [pcs, h]
  have e3 : lstep W u other calls ⟨some [], pcs (.writing r1 0) (.ready r2)⟩ (.write 0 (Json.dumps r1).length) =
      some ⟨some (Json.dumps r1), pcs (.ended .returned) (.ready r2)⟩ := by
    simp only [lstep, show pcs (.writing r1 0) (.ready r2) 0 = .writing r1 0 from rfl, Option.getD_some, hfull, Option.some.injEq,
      Together.mk.injEq, true_and]
    funext j; by_cases h : j = 0
    · subst h; simp [pcs]
    · simp [pcs, h]
  have e4 : lstep W u other calls ⟨some (Json.dumps r1), pcs (.ended .returned) (.ready r2)⟩ (.opn 1) =
      some ⟨some [], pcs (.ended .returned) (.writing r2 0)⟩ := by
    simp only [lstep, show pcs (.ended .returned) (.ready r2) 1 = .ready r2 from rfl, Option.some.injEq, Together.mk.injEq, true_and]
    funext j; by_cases h : j = 1
    · subst h; rfl
    · simp [pcs, h]
  have e5 : lstep W u other calls ⟨some [], pcs (.ended .returned) (.writing r2 0)⟩ (.write 1 (Json.dumps r2).length) =
      some ⟨some (Json.dumps r2), pcs (.ended .returned) (.ended .returned)⟩ := by
    simp only [lstep, show pcs (.ended .returned) (.writing r2 0) 1 = .writing r2 0 from rfl, Option.getD_some, hfull, Option.some.injEq,
      Together.mk.injEq, true_and]
    funext j; by_cases h : j = 1
    · subst h; simp [pcs]
    · simp [pcs, h]
  refine ⟨_, _, ((((((LExec.nil.snoc e0).snoc e1).snoc e2).snoc e3).snoc e4).snoc e5), rfl, rfl, ?_, ?_, ?_⟩
  · have hl : Json.loads (Json.dumps r2) = some r2 := Json.loads_dumps hnd
    simp only [recordIn, Option.bind_some, hl]
    exact Dict.get_set_ne d _ (Ne.symm hn)
  · have hl : Json.loads (Json.dumps r2) = some r2 := Json.loads_dumps hnd
    simp only [recordIn, Option.bind_some, hl]
    exact Dict.get_set_self d _ _
  · intro order hp
    rcases perm_pair hp with rfl | rfl
    · rw [inOrder_two hd hw h1 h2, Dict.get_set_ne _ _ (Ne.symm hn), Dict.get_set_self]
    · rw [inOrder_two hd hw h2 h1, Dict.get_set_self]

/-- **C141 violated**, a second way: for every registry, and every two calls that add records, the second of which gives a longer text: they can run
at the same time in such a way that both return and the file cannot be read any more. -/
theorem C141_violated_unreadable (W : World) (u : Bool) (other file : Option Str) {d : Registry} {n1 p1 n2 p2 : Str}
    (hd : load (withText W (put (fun _ => other) u file)) u = some d) (hw : W.writable u = true)
    (h1 : W.exist (W.abspath p1) = true) (h2 : W.exist (W.abspath p2) = true)
    (hlen : (Json.dumps (d.set n1 (W.abspath p1))).length < (Json.dumps (d.set n2 (W.abspath p2))).length) :
    ∃ tr s f, LExec W u other [⟨u, false, false, [n1, p1]⟩, ⟨u, false, false, [n2, p2]⟩] file tr s ∧
      s.pc 0 = .ended .returned ∧ s.pc 1 = .ended .returned ∧ s.file = some f ∧ Json.loads f = none := by
  have hu1 := utility_add (n := n1) hd hw h1
  have hu2 := utility_add (n := n2) hd hw h2
  let r1 := d.set n1 (W.abspath p1)
  let r2 := d.set n2 (W.abspath p2)
  have hu1' : utility (withText W (put (fun _ => other) u file)) ⟨u, false, false, [n1, p1]⟩ = (.returned, some r1) := hu1
  have hu2' : utility (withText W (put (fun _ => other) u file)) ⟨u, false, false, [n2, p2]⟩ = (.returned, some r2) := hu2
  have hfull : ∀ (r : Registry), overlay [] 0 (((Json.dumps r).drop 0).take (Json.dumps r).length) = Json.dumps r := by
    intro r; simp [overlay]
  let calls : List Args := [⟨u, false, false, [n1, p1]⟩, ⟨u, false, false, [n2, p2]⟩]
  let pcs (x y : Pc) : Nat → Pc := fun j => if j = 0 then x else if j = 1 then y else .start
  have e0 : lstep W u other calls ⟨file, fun _ => .start⟩ (.read 0) = some ⟨file, pcs (.ready r1) .start⟩ := by
    simp only [lstep, calls, List.getElem?_cons_zero, hu1', Option.some.injEq, Together.mk.injEq, true_and]
    funext j; by_cases h : j = 0 <;> simp [pcs, h]
  have e1 : lstep W u other calls ⟨file, pcs (.ready r1) .start⟩ (.read 1) = some ⟨file, pcs (.ready r1) (.ready r2)⟩ := by
    simp only [lstep, calls, List.getElem?_cons_succ, List.getElem?_cons_zero]
    simp only [show pcs (.ready r1) .start 1 = .start from rfl, hu2', Option.some.injEq, Together.mk.injEq, true_and]
    funext j; by_cases h : j = 1
    · subst h; rfl
    · simp [pcs, h]
  have e2 : lstep W u other calls ⟨file, pcs (.ready r1) (.ready r2)⟩ (.opn 1) = some ⟨some [], pcs (.ready r1) (.writing r2 0)⟩ := by
    simp only [lstep, show pcs (.ready r1) (.ready r2) 1 = .ready r2 from rfl, Option.some.injEq, Together.mk.injEq, true_and]
    funext j; by_cases h : j = 1
    · subst h; rfl
    · simp [pcs, h]
  have e3 : lstep W u other calls ⟨some [], pcs (.ready r1) (.writing r2 0)⟩ (.opn 0) = some ⟨some [], pcs (.writing r1 0) (.writing r2 0)⟩ := by
    simp only [lstep, show pcs (.ready r1) (.writing r2 0) 0 = .ready r1 from rfl, Option.some.injEq, Together.mk.injEq, true_and]
    funext j; by_cases h : j = 0
    · subst h; rfl
    · simp [pcs, h]
  have e4 : lstep W u other calls ⟨some [], pcs (.writing r1 0) (.writing r2 0)⟩ (.write 1 (Json.dumps r2).length) =
      some ⟨some (Json.dumps r2), pcs (.writing r1 0) (.ended .returned)⟩ := by
    simp only [lstep, show pcs (.writing r1 0) (.writing r2 0) 1 = .writing r2 0 from rfl, Option.getD_some, hfull, Option.some.injEq,
      Together.mk.injEq, true_and]
    funext j; by_cases h : j = 1
    · subst h; simp [pcs]
    · simp [pcs, h]
  have e5 : lstep W u other calls ⟨some (Json.dumps r2), pcs (.writing r1 0) (.ended .returned)⟩ (.write 0 (Json.dumps r1).length) =
      some ⟨some (Json.dumps r1 ++ (Json.dumps r2).drop (Json.dumps r1).length), pcs (.ended .returned) (.ended .returned)⟩ := by
    have hov : overlay (Json.dumps r2) 0 (((Json.dumps r1).drop 0).take (Json.dumps r1).length) =
        Json.dumps r1 ++ (Json.dumps r2).drop (Json.dumps r1).length := by simp [overlay]
    simp only [lstep, show pcs (.writing r1 0) (.ended .returned) 0 = .writing r1 0 from rfl, Option.getD_some, hov, Option.some.injEq,
      Together.mk.injEq, true_and]
    funext j; by_cases h : j = 0
    · subst h; simp [pcs]
    · simp [pcs, h]
  exact ⟨_, _, _, ((((((LExec.nil.snoc e0).snoc e1).snoc e2).snoc e3).snoc e4).snoc e5), rfl, rfl, rfl,
    Json.loads_extra r1 (Json.dumps_end r2 hlen)⟩

/-! ### examples -/

/-- a user's registry with one record -/
def keptFile : Bool → Option Str := fun u => if u then some "{\"a\": \"/a.g.py\"}".toList else none

/-- Non-vacuity of C140: a call that writes; half-way the file cannot be read. -/
example : (utility (withText demo keptFile) ⟨true, false, false, ["b".toList, "b.g.py".toList]⟩).1 = .returned ∧
    Moment demo keptFile ⟨true, false, false, ["b".toList, "b.g.py".toList]⟩ (some "{\"a\": \"/a.g.py\", \"b\": \"/w".toList) ∧
    Json.loads "{\"a\": \"/a.g.py\", \"b\": \"/w".toList = none := by
  refine ⟨by decide +kernel, .writing (r := [("a".toList, "/a.g.py".toList), ("b".toList, "/w/b.g.py".toList)]) (by decide +kernel) ?_,
    by decide +kernel⟩
  exact ⟨"/b.g.py\"}".toList, by decide +kernel⟩

/-- a world in which two libraries exist -/
def demo2 : World := { demo with exist := fun p => p = "/w/b.g.py".toList ∨ p = "/w/lib/c.g.py".toList }

/-- Non-vacuity of C141: two calls that add records. -/
example : load (withText demo2 (put (fun _ => none) true (keptFile true))) true = some [("a".toList, "/a.g.py".toList)] ∧
    demo2.writable true = true ∧ demo2.exist (demo2.abspath "b.g.py".toList) = true ∧ demo2.exist (demo2.abspath "lib/c.g.py".toList) = true ∧
    (Json.dumps (Dict.set [("a".toList, "/a.g.py".toList)] "b".toList (demo2.abspath "b.g.py".toList))).length <
      (Json.dumps (Dict.set [("a".toList, "/a.g.py".toList)] "c".toList (demo2.abspath "lib/c.g.py".toList))).length := by decide +kernel

end Licant.Misc.Libs
