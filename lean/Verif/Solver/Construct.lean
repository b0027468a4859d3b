/-
The constructor of the solver (lemmas for Props.lean).
-/
import Verif.Solver.Spec
import Verif.Solver.Exec
import Mathlib.Data.Finset.Card
import Mathlib.Data.Finset.Range
import Mathlib.Data.List.Chain

set_option autoImplicit false

namespace Licant.Solver
open Licant.Py Relation

/-! ### invert_depends_dictionary -/

section invert
variable {α : Type*} [DecidableEq α]

/-- inner loop of `invertDependsDictionary` -/
def invInner (t : α) (deps : List α) (inv : Dict α (List α)) : Except Err (Dict α (List α)) :=
  deps.foldlM (fun (inv : Dict α (List α)) dep =>
      match inv.get dep with
      | none => Except.error Err.keyError
      | some s => Except.ok (inv.set dep (sadd s t))) inv

theorem invInner_ok (t : α) (deps : List α) :
    ∀ inv : Dict α (List α), (∀ d ∈ deps, d ∈ inv.keys) →
    ∃ inv', invInner t deps inv = .ok inv' ∧ inv'.keys = inv.keys ∧
      ∀ k, inv'.get k = (inv.get k).map (fun s => if k ∈ deps then sadd s t else s) := by
  induction deps with
  | nil => intro inv _; exact ⟨inv, rfl, rfl, by simp⟩
  | cons d deps ih =>
    intro inv h
    have hd := (Dict.get_isSome_iff inv d).2 (h d (by simp))
    obtain ⟨s, hs⟩ := Option.isSome_iff_exists.1 hd
    have hkeys : (inv.set d (sadd s t)).keys = inv.keys := by
      rw [Dict.keys_set, if_pos (h d (by simp))]
    obtain ⟨inv', h1, h2, h3⟩ := ih (inv.set d (sadd s t)) (by
      intro x hx; rw [hkeys]; exact h x (by simp [hx]))
    refine ⟨inv', ?_, by rw [h2, hkeys], ?_⟩
    · simp only [invInner, List.foldlM_cons, hs]
      exact h1
    · intro k
      rw [h3, Dict.get_set]
      by_cases hk : d = k
      · subst hk
        simp only [if_true, hs, Option.map_some, List.mem_cons, true_or]
        split
        · congr 1; unfold sadd; split <;> simp_all
        · rfl
      · simp only [hk, if_false, List.mem_cons]
        have : ¬ (k = d) := fun h => hk h.symm
        simp [this]

theorem invInner_err (t : α) (deps : List α) :
    ∀ inv : Dict α (List α), (∃ d ∈ deps, d ∉ inv.keys) →
    invInner t deps inv = .error .keyError := by
  induction deps with
  | nil => intro inv h; simp at h
  | cons d deps ih =>
    intro inv h
    simp only [invInner, List.foldlM_cons]
    cases hs : inv.get d with
    | none => rfl
    | some s =>
      have hd : d ∈ inv.keys := by rw [← Dict.get_isSome_iff, hs]; rfl
      have hkeys : (inv.set d (sadd s t)).keys = inv.keys := by
        rw [Dict.keys_set, if_pos hd]
      refine ih (inv.set d (sadd s t)) ?_
      obtain ⟨x, hx, hx'⟩ := h
      rcases List.mem_cons.1 hx with rfl | hx
      · exact absurd hd hx'
      · exact ⟨x, hx, by rw [hkeys]; exact hx'⟩

/-- first loop -/
def invInit (d : Dict α (List α)) : Dict α (List α) :=
  d.foldl (fun inv p => Dict.set inv p.1 ([] : List α)) []

theorem invInit_aux (d : Dict α (List α)) : ∀ (acc : Dict α (List α)),
    (∀ k s, acc.get k = some s → s = []) → (acc.keys ++ d.keys).Nodup →
    (d.foldl (fun inv p => Dict.set inv p.1 ([] : List α)) acc).keys = acc.keys ++ d.keys ∧
    ∀ k s, (d.foldl (fun inv p => Dict.set inv p.1 ([] : List α)) acc).get k = some s → s = [] := by
  induction d with
  | nil => intro acc h _; simpa [Dict.keys] using h
  | cons p d ih =>
    intro acc h hn
    have hp : p.1 ∉ acc.keys := by
      intro hm
      rw [List.nodup_append] at hn
      exact hn.2.2 _ hm p.1 (by simp [Dict.keys]) rfl
    have hk : (acc.set p.1 []).keys = acc.keys ++ [p.1] := by rw [Dict.keys_set, if_neg hp]
    have := ih (acc.set p.1 []) (by
      intro k s hs
      rw [Dict.get_set] at hs
      split at hs
      · simpa using hs.symm
      · exact h k s hs) (by rw [hk]; simpa [Dict.keys] using hn)
    refine ⟨?_, this.2⟩
    simp only [List.foldl_cons]
    rw [this.1, hk]; simp [Dict.keys]

theorem invInit_keys (d : Dict α (List α)) (hn : d.keys.Nodup) : (invInit d).keys = d.keys := by
  have := (invInit_aux d [] (by simp) (by simpa [Dict.keys] using hn)).1
  simpa [Dict.keys, invInit] using this

theorem invInit_get (d : Dict α (List α)) (hn : d.keys.Nodup) (k : α) (s : List α)
    (h : (invInit d).get k = some s) : s = [] :=
  (invInit_aux d [] (by simp) (by simpa [Dict.keys] using hn)).2 k s h

theorem invOuter_ok (d : Dict α (List α)) :
    ∀ inv : Dict α (List α), (∀ p ∈ d, ∀ x ∈ p.2, x ∈ inv.keys) →
    ∃ inv', d.foldlM (fun inv p => invInner p.1 p.2 inv) inv = .ok inv' ∧ inv'.keys = inv.keys ∧
      ∀ k s, inv.get k = some s → ∃ s', inv'.get k = some s' ∧
        (∀ x, x ∈ s' ↔ x ∈ s ∨ ∃ ds, (x, ds) ∈ d ∧ k ∈ ds) ∧ (s.Nodup → s'.Nodup) := by
  induction d with
  | nil => intro inv _; exact ⟨inv, rfl, rfl, fun k s h => ⟨s, h, by simp, id⟩⟩
  | cons p d ih =>
    intro inv h
    obtain ⟨i1, h1, h2, h3⟩ := invInner_ok p.1 p.2 inv (h p (by simp))
    obtain ⟨i2, g1, g2, g3⟩ := ih i1 (by intro q hq x hx; rw [h2]; exact h q (by simp [hq]) x hx)
    refine ⟨i2, ?_, by rw [g2, h2], ?_⟩
    · simp only [List.foldlM_cons, h1]; exact g1
    · intro k s hs
      have hk := h3 k
      rw [hs, Option.map_some] at hk
      obtain ⟨s', e1, e2, e3⟩ := g3 k _ hk
      refine ⟨s', e1, ?_, ?_⟩
      · intro x
        rw [e2]
        constructor
        · rintro (hx | ⟨ds, hx, hk'⟩)
          · split at hx
            · rcases mem_sadd.1 hx with hx | rfl
              · exact Or.inl hx
              · exact Or.inr ⟨p.2, by simp, by assumption⟩
            · exact Or.inl hx
          · exact Or.inr ⟨ds, by simp [hx], hk'⟩
        · rintro (hx | ⟨ds, hx, hk'⟩)
          · left; split
            · exact mem_sadd.2 (Or.inl hx)
            · exact hx
          · rcases List.mem_cons.1 hx with hx | hx
            · left
              have h1 : x = p.1 := by rw [← hx]
              have h2 : ds = p.2 := by rw [← hx]
              subst h1 h2
              rw [if_pos hk']; exact mem_sadd.2 (Or.inr rfl)
            · exact Or.inr ⟨ds, hx, hk'⟩
      · intro hn
        apply e3
        split
        · exact nodup_sadd hn _
        · exact hn

theorem invOuter_err (d : Dict α (List α)) :
    ∀ inv : Dict α (List α), (∃ p ∈ d, ∃ x ∈ p.2, x ∉ inv.keys) →
    d.foldlM (fun inv p => invInner p.1 p.2 inv) inv = .error .keyError := by
  induction d with
  | nil => intro inv h; simp at h
  | cons p d ih =>
    intro inv h
    by_cases hp : ∃ x ∈ p.2, x ∉ inv.keys
    · simp only [List.foldlM_cons, invInner_err p.1 p.2 inv hp]; rfl
    · obtain ⟨i1, h1, h2, h3⟩ := invInner_ok p.1 p.2 inv (by
        intro x hx; by_contra hc; exact hp ⟨x, hx, hc⟩)
      simp only [List.foldlM_cons, h1]
      refine ih i1 ?_
      obtain ⟨q, hq, x, hx, hx'⟩ := h
      rcases List.mem_cons.1 hq with rfl | hq
      · exact absurd ⟨x, hx, hx'⟩ hp
      · exact ⟨q, hq, x, hx, by rw [h2]; exact hx'⟩

theorem invert_eq (d : Dict α (List α)) :
    invertDependsDictionary d = d.foldlM (fun inv p => invInner p.1 p.2 inv) (invInit d) := rfl

/-- Characterisation of `invertDependsDictionary` on dictionaries whose sets mention keys only. -/
theorem invert_ok (d : Dict α (List α)) (hn : d.keys.Nodup) (hc : ∀ p ∈ d, ∀ x ∈ p.2, x ∈ d.keys) :
    ∃ inv, invertDependsDictionary d = .ok inv ∧ inv.keys = d.keys ∧
      ∀ k ∈ d.keys, ∃ s, inv.get k = some s ∧ s.Nodup ∧
        ∀ x, x ∈ s ↔ ∃ ds, (x, ds) ∈ d ∧ k ∈ ds := by
  have hk := invInit_keys d hn
  obtain ⟨inv, h1, h2, h3⟩ := invOuter_ok d (invInit d) (by rw [hk]; exact hc)
  refine ⟨inv, by rw [invert_eq]; exact h1, by rw [h2, hk], ?_⟩
  intro k hkm
  rw [← hk, ← Dict.get_isSome_iff] at hkm
  obtain ⟨s, hs⟩ := Option.isSome_iff_exists.1 hkm
  have := invInit_get d hn k s hs
  subst this
  obtain ⟨s', e1, e2, e3⟩ := h3 k _ hs
  exact ⟨s', e1, e3 (by simp), fun x => by simp [e2 x]⟩

theorem invert_err (d : Dict α (List α)) (hn : d.keys.Nodup)
    (hc : ∃ p ∈ d, ∃ x ∈ p.2, x ∉ d.keys) :
    invertDependsDictionary d = .error .keyError := by
  rw [invert_eq]
  exact invOuter_err d _ (by rw [invInit_keys d hn]; exact hc)

end invert

/-! ### names -/

theorem namesToDeptargets_concat (ts : List DTarget) (t : DTarget) :
    namesToDeptargets (ts ++ [t]) = (namesToDeptargets ts).set t.name ts.length := by
  simp [namesToDeptargets, List.zipIdx_append]

theorem names_get (ts : List DTarget) (nm : String) (j : Nat) :
    (namesToDeptargets ts).get nm = some j ↔ Denotes ts nm j := by
  induction ts using List.reverseRecOn generalizing j with
  | nil => simp [namesToDeptargets, Denotes]
  | append_singleton ts t ih =>
    rw [namesToDeptargets_concat, Dict.get_set]
    by_cases h : t.name = nm
    · simp only [h, if_true, Option.some.injEq, Denotes]
      constructor
      · rintro rfl
        refine ⟨⟨t, by simp, h⟩, ?_⟩
        intro k t' hk _
        have : k < (ts ++ [t]).length := by
          rcases Nat.lt_or_ge k (ts ++ [t]).length with h' | h'
          · exact h'
          · rw [List.getElem?_eq_none h'] at hk; simp at hk
        simp at this; omega
      · rintro ⟨⟨t', h1, _⟩, h2⟩
        have := h2 ts.length t (by simp) h
        have hj : j < (ts ++ [t]).length := by
          rcases Nat.lt_or_ge j (ts ++ [t]).length with h' | h'
          · exact h'
          · rw [List.getElem?_eq_none h'] at h1; simp at h1
        simp at hj; omega
    · simp only [h, if_false, ih, Denotes]
      constructor
      · rintro ⟨⟨t', h1, h1'⟩, h2⟩
        have hj : j < ts.length := by
          rcases Nat.lt_or_ge j ts.length with h' | h'
          · exact h'
          · rw [List.getElem?_eq_none h'] at h1; simp at h1
        refine ⟨⟨t', by rw [List.getElem?_append_left hj]; exact h1, h1'⟩, ?_⟩
        intro k t'' hk hn
        rcases Nat.lt_trichotomy k ts.length with h' | h' | h'
        · rw [List.getElem?_append_left h'] at hk; exact h2 k t'' hk hn
        · subst h'; simp at hk; subst hk; exact absurd hn h
        · rw [List.getElem?_eq_none (by simp; omega)] at hk; simp at hk
      · rintro ⟨⟨t', h1, h1'⟩, h2⟩
        have hj : j < ts.length := by
          rcases Nat.lt_trichotomy j ts.length with h' | h' | h'
          · exact h'
          · subst h'; simp at h1; subst h1; exact absurd h1' h
          · rw [List.getElem?_eq_none (by simp; omega)] at h1; simp at h1
        rw [List.getElem?_append_left hj] at h1
        refine ⟨⟨t', h1, h1'⟩, ?_⟩
        intro k t'' hk hn
        have hk' : k < ts.length := by
          rcases Nat.lt_or_ge k ts.length with h' | h'
          · exact h'
          · rw [List.getElem?_eq_none h'] at hk; simp at hk
        exact h2 k t'' (by rw [List.getElem?_append_left hk']; exact hk) hn

theorem names_isSome (ts : List DTarget) (nm : String) :
    ((namesToDeptargets ts).get nm).isSome ↔ ∃ t ∈ ts, t.name = nm := by
  induction ts using List.reverseRecOn with
  | nil => simp [namesToDeptargets]
  | append_singleton ts t ih =>
    rw [namesToDeptargets_concat, Dict.get_set]
    by_cases h : t.name = nm
    · simp only [h, if_true, Option.isSome_some, true_iff]; exact ⟨t, by simp, h⟩
    · simp only [h, if_false, ih]
      constructor
      · rintro ⟨t', h1, h2⟩; exact ⟨t', by simp [h1], h2⟩
      · rintro ⟨t', h1, h2⟩
        rcases List.mem_append.1 h1 with h1 | h1
        · exact ⟨t', h1, h2⟩
        · simp at h1; subst h1; exact absurd h2 h

theorem Denotes.lt {ts : List DTarget} {nm : String} {j : Nat} (h : Denotes ts nm j) :
    j < ts.length := by
  obtain ⟨⟨t, h1, _⟩, _⟩ := h
  rcases Nat.lt_or_ge j ts.length with h' | h'
  · exact h'
  · rw [List.getElem?_eq_none h'] at h1; simp at h1

theorem Denotes.inj {ts : List DTarget} {a b : String} {j : Nat} (h : Denotes ts a j)
    (h' : Denotes ts b j) : a = b := by
  obtain ⟨⟨t, h1, h2⟩, _⟩ := h
  obtain ⟨⟨t', h1', h2'⟩, _⟩ := h'
  rw [h1] at h1'; cases h1'; rw [← h2, ← h2']

/-! ### resolveDeps, collectDependsOfTargets -/

theorem resolve_aux (ts : List DTarget) (deps : List String) : ∀ acc : List Nat,
    (∀ nm ∈ deps, ∃ j, Denotes ts nm j) →
    ∃ l, deps.foldlM (fun acc dep =>
        match (namesToDeptargets ts).get dep with
        | none => .error (.unknown dep)
        | some j => .ok (sadd acc j)) acc = (.ok l : Except Err (List Nat)) ∧
      (acc.Nodup → l.Nodup) ∧ (∀ j, j ∈ l ↔ j ∈ acc ∨ ∃ nm ∈ deps, Denotes ts nm j) ∧
      (deps.Nodup → (∀ nm ∈ deps, ∀ j, Denotes ts nm j → j ∉ acc) →
        l.length = acc.length + deps.length) := by
  induction deps with
  | nil => intro acc _; exact ⟨acc, rfl, id, by simp, by simp⟩
  | cons d deps ih =>
    intro acc h
    obtain ⟨j, hj⟩ := h d (by simp)
    obtain ⟨l, h1, h2, h3, h4⟩ := ih (sadd acc j) (fun nm hn => h nm (by simp [hn]))
    refine ⟨l, ?_, fun hn => h2 (nodup_sadd hn j), ?_, ?_⟩
    · simp only [List.foldlM_cons, (names_get ts d j).2 hj]; exact h1
    · intro x
      rw [h3, mem_sadd]
      constructor
      · rintro ((hx | rfl) | ⟨nm, hn, hx⟩)
        · exact Or.inl hx
        · exact Or.inr ⟨d, by simp, hj⟩
        · exact Or.inr ⟨nm, by simp [hn], hx⟩
      · rintro (hx | ⟨nm, hn, hx⟩)
        · exact Or.inl (Or.inl hx)
        · rcases List.mem_cons.1 hn with rfl | hn
          · have := (names_get ts nm j).2 hj
            rw [(names_get ts nm x).2 hx] at this
            exact Or.inl (Or.inr (by simpa using this))
          · exact Or.inr ⟨nm, hn, hx⟩
    · intro hn hacc
      have hjn : j ∉ acc := hacc d (by simp) j hj
      have hlen : (sadd acc j).length = acc.length + 1 := by simp [sadd, hjn]
      rw [h4 (List.nodup_cons.1 hn).2, hlen]
      · simp; omega
      · intro nm hnm x hx hmem
        rcases mem_sadd.1 hmem with hmem | rfl
        · exact hacc nm (by simp [hnm]) x hx hmem
        · have := hj.inj hx; subst this; exact (List.nodup_cons.1 hn).1 hnm

theorem resolve_ok (ts : List DTarget) (deps : List String) (hn : deps.Nodup)
    (h : ∀ nm ∈ deps, ∃ j, Denotes ts nm j) :
    ∃ l, resolveDeps (namesToDeptargets ts) deps = .ok l ∧ l.Nodup ∧
      (∀ j, j ∈ l ↔ ∃ nm ∈ deps, Denotes ts nm j) ∧ l.length = deps.length := by
  obtain ⟨l, h1, h2, h3, h4⟩ := resolve_aux ts deps [] h
  exact ⟨l, h1, h2 (by simp), fun j => by simp [h3], by simpa using h4 hn (by simp)⟩

theorem resolve_err (ts : List DTarget) (deps : List String) : ∀ acc : List Nat,
    (∃ nm ∈ deps, ∀ j, ¬ Denotes ts nm j) →
    ∃ nm ∈ deps, (∀ j, ¬ Denotes ts nm j) ∧ deps.foldlM (fun acc dep =>
        match (namesToDeptargets ts).get dep with
        | none => .error (.unknown dep)
        | some j => .ok (sadd acc j)) acc = (.error (.unknown nm) : Except Err (List Nat)) := by
  induction deps with
  | nil => intro acc h; simp at h
  | cons d deps ih =>
    intro acc h
    cases hd : (namesToDeptargets ts).get d with
    | none =>
      refine ⟨d, by simp, ?_, ?_⟩
      · intro j hj; rw [← names_get, hd] at hj; simp at hj
      · simp only [List.foldlM_cons, hd]; rfl
    | some j =>
      obtain ⟨nm, h1, h2⟩ := h
      rcases List.mem_cons.1 h1 with rfl | h1
      · exact absurd ((names_get ts nm j).1 hd) (h2 j)
      · obtain ⟨nm', g1, g2, g3⟩ := ih (sadd acc j) ⟨nm, h1, h2⟩
        refine ⟨nm', by simp [g1], g2, ?_⟩
        simp only [List.foldlM_cons, hd]; exact g3

theorem collect_aux_ok (names : Dict String Nat) (us : List DTarget) (k : Nat)
    (acc : Dict Nat (List Nat))
    (h : ∀ t ∈ us, ∃ l, resolveDeps names t.deps = .ok l)
    (hacc : acc.keys = List.range k) :
    ∃ d, (us.zipIdx k).foldlM (fun d p => do
        let s ← resolveDeps names p.1.deps
        pure (Dict.set d p.2 s)) acc = (.ok d : Except Err (Dict Nat (List Nat))) ∧
      d.keys = List.range (k + us.length) ∧
      (∀ i < k, d.get i = acc.get i) ∧
      ∀ i t, us[i]? = some t → ∃ l, resolveDeps names t.deps = .ok l ∧ d.get (k + i) = some l := by
  induction us generalizing k acc with
  | nil => exact ⟨acc, rfl, by simpa using hacc, by simp, by simp⟩
  | cons t us ih =>
    obtain ⟨l, hl⟩ := h t (by simp)
    have hk : (acc.set k l).keys = List.range (k + 1) := by
      rw [Dict.keys_set, hacc, if_neg (by simp), List.range_succ]
    obtain ⟨d, h1, h2, h3, h4⟩ := ih (k + 1) (acc.set k l) (fun t ht => h t (by simp [ht])) hk
    refine ⟨d, ?_, ?_, ?_, ?_⟩
    · simp only [List.zipIdx_cons, List.foldlM_cons, hl]; exact h1
    · rw [h2]; congr 1; simp; omega
    · intro i hi
      rw [h3 i (by omega), Dict.get_set_ne]; omega
    · intro i t' hi
      cases i with
      | zero =>
        simp at hi; subst hi
        refine ⟨l, hl, ?_⟩
        have := h3 k (by omega)
        simpa using this
      | succ i =>
        simp at hi
        obtain ⟨l', g1, g2⟩ := h4 i t' hi
        refine ⟨l', g1, ?_⟩
        have e : k + (i + 1) = k + 1 + i := by omega
        rw [e]; exact g2

theorem collect_aux_err (names : Dict String Nat) (us : List DTarget) (k : Nat)
    (acc : Dict Nat (List Nat))
    (h : ∃ t ∈ us, ∃ e, resolveDeps names t.deps = .error e) :
    ∃ t ∈ us, ∃ e, resolveDeps names t.deps = .error e ∧
      (us.zipIdx k).foldlM (fun d p => do
        let s ← resolveDeps names p.1.deps
        pure (Dict.set d p.2 s)) acc = (.error e : Except Err (Dict Nat (List Nat))) := by
  induction us generalizing k acc with
  | nil => simp at h
  | cons t us ih =>
    cases hr : resolveDeps names t.deps with
    | error e =>
      refine ⟨t, by simp, e, hr, ?_⟩
      simp only [List.zipIdx_cons, List.foldlM_cons, hr]; rfl
    | ok l =>
      obtain ⟨t', h1, e, h2⟩ := h
      rcases List.mem_cons.1 h1 with rfl | h1
      · rw [hr] at h2; simp at h2
      · obtain ⟨t'', g1, e', g2, g3⟩ := ih (k + 1) (acc.set k l) ⟨t', h1, e, h2⟩
        refine ⟨t'', by simp [g1], e', g2, ?_⟩
        simp only [List.zipIdx_cons, List.foldlM_cons, hr]; exact g3

/-! ### dfs -/

section dfs
variable (succ : Nat → List Nat)

/-- `b` is a successor of `a` -/
def Edge (a b : Nat) : Prop := b ∈ succ a

structure DInv (vis path : List Nat) : Prop where
  sub : ∀ x ∈ path, x ∈ vis
  closed : ∀ x ∈ vis, x ∉ path → ∀ y ∈ succ x, y ∈ vis ∧ y ∉ path
  acyc : ∀ x ∈ vis, x ∉ path → ¬ TransGen (Edge succ) x x

variable {succ}

theorem DInv.reach {vis path : List Nat} (D : DInv succ vis path) {x y : Nat}
    (hx : x ∈ vis) (hp : x ∉ path) (h : TransGen (Edge succ) x y) : y ∈ vis ∧ y ∉ path := by
  induction h with
  | single h => exact D.closed x hx hp _ h
  | tail _ h ih => exact D.closed _ ih.1 ih.2 _ h

/-- loop body of dfs -/
def dfsBody (succ : Nat → List Nat) (fuel : Nat) (path : List Nat) (visited : List Nat)
    (dep : Nat) : Except Err (List Nat) :=
  if dep ∈ path then .error (.circular (path ++ [dep]))
  else if dep ∈ visited then .ok visited
  else dfs succ fuel dep visited path

theorem dfs_succ (fuel t : Nat) (vis path : List Nat) :
    dfs succ (fuel + 1) t vis path =
      (succ t).foldlM (dfsBody succ fuel (path ++ [t])) (sadd vis t) := rfl

theorem dfs_ok (fuel : Nat) : ∀ (t : Nat) (vis path vis' : List Nat),
    dfs succ fuel t vis path = .ok vis' → DInv succ vis path → t ∉ vis →
    DInv succ vis' path ∧ (∀ x ∈ vis, x ∈ vis') ∧ t ∈ vis' ∧ (vis.Nodup → vis'.Nodup) ∧
      (∀ x ∈ vis', x ∈ vis ∨ ReflTransGen (Edge succ) t x) := by
  induction fuel with
  | zero => intro t vis path vis' h; simp [dfs] at h
  | succ fuel ih =>
    intro t vis path vis' h D ht
    rw [dfs_succ] at h
    -- the loop
    have loop : ∀ (cs : List Nat) (v v' : List Nat), (∀ c ∈ cs, c ∈ succ t) →
        cs.foldlM (dfsBody succ fuel (path ++ [t])) v = .ok v' → DInv succ v (path ++ [t]) →
        DInv succ v' (path ++ [t]) ∧ (∀ x ∈ v, x ∈ v') ∧ (v.Nodup → v'.Nodup) ∧
        (∀ c ∈ cs, c ∈ v' ∧ c ∉ path ++ [t]) ∧
        (∀ x ∈ v', x ∈ v ∨ ReflTransGen (Edge succ) t x) := by
      intro cs
      induction cs with
      | nil =>
        intro v v' _ h D
        simp only [List.foldlM_nil] at h
        cases h
        exact ⟨D, fun _ h => h, id, by simp, fun x hx => Or.inl hx⟩
      | cons c cs ihc =>
        intro v v' hcs h D
        simp only [List.foldlM_cons] at h
        have hcs' : ∀ c ∈ cs, c ∈ succ t := fun x hx => hcs x (by simp [hx])
        have hct : Edge succ t c := hcs c (by simp)
        by_cases hp : c ∈ path ++ [t]
        · simp only [dfsBody, hp, if_true] at h; cases h
        · by_cases hv : c ∈ v
          · simp only [dfsBody, hp, hv, if_true, if_false] at h
            obtain ⟨D', h1, h2, h3, h4⟩ := ihc v v' hcs' h D
            refine ⟨D', h1, h2, ?_, h4⟩
            intro x hx
            rcases List.mem_cons.1 hx with rfl | hx
            · exact ⟨h1 _ hv, hp⟩
            · exact h3 x hx
          · have hb : dfsBody succ fuel (path ++ [t]) v c = dfs succ fuel c v (path ++ [t]) := by
              simp only [dfsBody, hp, hv, if_false]
            rw [hb] at h
            cases hd : dfs succ fuel c v (path ++ [t]) with
            | error e => rw [hd] at h; cases h
            | ok v1 =>
              rw [hd] at h
              obtain ⟨D1, g1, g2, g3, g4⟩ := ih c v (path ++ [t]) v1 hd D hv
              obtain ⟨D', h1, h2, h3, h4⟩ := ihc v1 v' hcs' h D1
              refine ⟨D', fun x hx => h1 x (g1 x hx), fun hn => h2 (g3 hn), ?_, ?_⟩
              · intro x hx
                rcases List.mem_cons.1 hx with rfl | hx
                · exact ⟨h1 _ g2, hp⟩
                · exact h3 x hx
              · intro x hx
                rcases h4 x hx with hx | hx
                · rcases g4 x hx with hx | hx
                  · exact Or.inl hx
                  · exact Or.inr (ReflTransGen.head hct hx)
                · exact Or.inr hx
    have htp : t ∉ path := fun h => ht (D.sub t h)
    have D0 : DInv succ (sadd vis t) (path ++ [t]) := by
      constructor
      · intro x hx
        rcases List.mem_append.1 hx with hx | hx
        · exact mem_sadd.2 (Or.inl (D.sub x hx))
        · simp at hx; exact mem_sadd.2 (Or.inr hx)
      · intro x hx hxp y hy
        simp only [List.mem_append, List.mem_singleton, not_or] at hxp
        rcases mem_sadd.1 hx with hx | hx
        · have := D.closed x hx hxp.1 y hy
          refine ⟨mem_sadd.2 (Or.inl this.1), ?_⟩
          simp only [List.mem_append, List.mem_singleton, not_or]
          refine ⟨this.2, ?_⟩
          rintro rfl; exact ht this.1
        · exact absurd hx hxp.2
      · intro x hx hxp
        simp only [List.mem_append, List.mem_singleton, not_or] at hxp
        rcases mem_sadd.1 hx with hx | hx
        · exact D.acyc x hx hxp.1
        · exact absurd hx hxp.2
    obtain ⟨D', h1, h2, h3, h4⟩ := loop (succ t) _ vis' (fun _ h => h) h D0
    refine ⟨?_, fun x hx => h1 x (mem_sadd.2 (Or.inl hx)), h1 t (mem_sadd.2 (Or.inr rfl)),
      fun hn => h2 (nodup_sadd hn t), ?_⟩
    · constructor
      · intro x hx; exact h1 x (mem_sadd.2 (Or.inl (D.sub x hx)))
      · intro x hx hxp y hy
        by_cases hxt : x = t
        · subst hxt
          have := h3 y hy
          simp only [List.mem_append, not_or] at this
          exact ⟨this.1, this.2.1⟩
        · have := D'.closed x hx (by simp [hxp, hxt]) y hy
          simp only [List.mem_append, not_or] at this
          exact ⟨this.1, this.2.1⟩
      · intro x hx hxp
        by_cases hxt : x = t
        · subst hxt
          intro hc
          obtain ⟨c, hc1, hc2⟩ := TransGen.head'_iff.1 hc
          have hcb := h3 c hc1
          rcases ReflTransGen.cases_head hc2 with rfl | _
          · simp at hcb
          · rcases (reflTransGen_iff_eq_or_transGen.1 hc2) with rfl | hc2
            · simp at hcb
            · have := D'.reach hcb.1 hcb.2 hc2
              simp at this
        · exact D'.acyc x hx (by simp [hxp, hxt])
    · intro x hx
      rcases h4 x hx with hx | hx
      · rcases mem_sadd.1 hx with hx | rfl
        · exact Or.inl hx
        · exact Or.inr ReflTransGen.refl
      · exact Or.inr hx

/-- Every error of dfs is a genuine cycle or due to a simple chain longer than the recursion
limit. -/
def BadChain (succ : Nat → List Nat) (n lim : Nat) (e : Err) : Prop :=
  (e = .recursion ∧ ∃ l : List Nat, l.Nodup ∧ (∀ x ∈ l, x < n) ∧ List.IsChain (Edge succ) l ∧
    lim < l.length) ∨
  ∃ p d, e = .circular (p ++ [d]) ∧ d ∈ p ∧ List.IsChain (Edge succ) (p ++ [d])

theorem dfs_error (n : Nat) (hsucc : ∀ x, ∀ y ∈ succ x, y < n) (lim fuel : Nat) :
    ∀ (t : Nat) (vis path : List Nat) (e : Err),
    dfs succ fuel t vis path = .error e → t < n → t ∉ path → path.Nodup → (∀ x ∈ path, x < n) →
    List.IsChain (Edge succ) (path ++ [t]) → lim = fuel + path.length →
    BadChain succ n lim e := by
  induction fuel with
  | zero =>
    intro t vis path e he ht htp hn hlt hch hf
    simp only [dfs] at he
    cases he
    refine Or.inl ⟨rfl, path ++ [t], ?_, ?_, hch, by simp; omega⟩
    · rw [List.nodup_append]; refine ⟨hn, by simp, ?_⟩
      rintro a ha b hb rfl; simp at hb; subst hb; exact htp ha
    · intro x hx
      rcases List.mem_append.1 hx with hx | hx
      · exact hlt x hx
      · simp at hx; subst hx; exact ht
  | succ fuel ih =>
    intro t vis path e h ht htp hn hlt hch hf
    rw [dfs_succ] at h
    have hn' : (path ++ [t]).Nodup := by
      rw [List.nodup_append]; refine ⟨hn, by simp, ?_⟩
      rintro a ha b hb rfl; simp at hb; subst hb; exact htp ha
    have hchain : ∀ c, c ∈ succ t → List.IsChain (Edge succ) (path ++ [t] ++ [c]) := by
      intro c hc
      rw [List.isChain_append]
      refine ⟨hch, List.IsChain.singleton _, ?_⟩
      intro x hx y hy
      simp at hx hy
      subst hx hy; exact hc
    have loop : ∀ (cs : List Nat) (v : List Nat), (∀ c ∈ cs, c ∈ succ t) →
        cs.foldlM (dfsBody succ fuel (path ++ [t])) v = .error e →
        BadChain succ n lim e := by
      intro cs
      induction cs with
      | nil => intro v _ h; simp only [List.foldlM_nil] at h; cases h
      | cons c cs ihc =>
        intro v hcs h
        simp only [List.foldlM_cons] at h
        have hcs' : ∀ c ∈ cs, c ∈ succ t := fun x hx => hcs x (by simp [hx])
        by_cases hp : c ∈ path ++ [t]
        · simp only [dfsBody, hp, if_true] at h
          cases h
          exact Or.inr ⟨path ++ [t], c, rfl, hp, hchain c (hcs c (by simp))⟩
        · by_cases hv : c ∈ v
          · simp only [dfsBody, hp, hv, if_true, if_false] at h
            exact ihc v hcs' h
          · have hb : dfsBody succ fuel (path ++ [t]) v c = dfs succ fuel c v (path ++ [t]) := by
              simp only [dfsBody, hp, hv, if_false]
            rw [hb] at h
            cases hd : dfs succ fuel c v (path ++ [t]) with
            | error e' =>
              rw [hd] at h; cases h
              refine ih c v (path ++ [t]) e hd (hsucc t c (hcs c (by simp))) hp hn' ?_
                (hchain c (hcs c (by simp))) (by simp; omega)
              intro x hx
              rcases List.mem_append.1 hx with hx | hx
              · exact hlt x hx
              · simp at hx; subst hx; exact ht
            | ok v1 => rw [hd] at h; exact ihc v1 hcs' h
    exact loop _ _ (fun _ h => h) h

/-- The loop of `connectivity_check`. -/
theorem roots_ok (lim : Nat) (roots : List Nat) : ∀ (vis vis' : List Nat),
    roots.foldlM (fun visited target => dfs succ lim target visited []) vis = .ok vis' →
    DInv succ vis [] → roots.Nodup → (∀ r ∈ roots, r ∉ vis) →
    (∀ r ∈ roots, ∀ x, ¬ Edge succ x r) →
    DInv succ vis' [] ∧ (vis.Nodup → vis'.Nodup) ∧ (∀ x ∈ vis, x ∈ vis') ∧
      (∀ r ∈ roots, r ∈ vis') ∧
      (∀ x ∈ vis', x ∈ vis ∨ ∃ r ∈ roots, ReflTransGen (Edge succ) r x) := by
  induction roots with
  | nil =>
    intro vis vis' h D _ _ _
    simp only [List.foldlM_nil] at h; cases h
    exact ⟨D, id, fun _ h => h, by simp, fun x hx => Or.inl hx⟩
  | cons r roots ih =>
    intro vis vis' h D hn hr he
    simp only [List.foldlM_cons] at h
    cases hd : dfs succ lim r vis [] with
    | error e => rw [hd] at h; cases h
    | ok v1 =>
      rw [hd] at h
      obtain ⟨D1, h1, h2, h3, h4⟩ := dfs_ok lim r vis [] v1 hd D (hr r (by simp))
      have hn' := List.nodup_cons.1 hn
      obtain ⟨D2, g1, g2, g3, g4⟩ := ih v1 vis' h D1 hn'.2 (by
        intro x hx hx1
        rcases h4 x hx1 with hx1 | hx1
        · exact hr x (by simp [hx]) hx1
        · rcases reflTransGen_iff_eq_or_transGen.1 hx1 with rfl | hx1
          · exact hn'.1 hx
          · obtain ⟨y, _, hy⟩ := TransGen.tail'_iff.1 hx1
            exact he x (by simp [hx]) y hy) (fun x hx => he x (by simp [hx]))
      refine ⟨D2, fun hv => g1 (h3 hv), fun x hx => g2 x (h1 x hx), ?_, ?_⟩
      · intro x hx
        rcases List.mem_cons.1 hx with rfl | hx
        · exact g2 _ h2
        · exact g3 x hx
      · intro x hx
        rcases g4 x hx with hx | ⟨r', hr', hx⟩
        · rcases h4 x hx with hx | hx
          · exact Or.inl hx
          · exact Or.inr ⟨r, by simp, hx⟩
        · exact Or.inr ⟨r', by simp [hr'], hx⟩

theorem roots_error (n : Nat) (hsucc : ∀ x, ∀ y ∈ succ x, y < n) (lim : Nat)
    (roots : List Nat) (hr : ∀ r ∈ roots, r < n) : ∀ (vis : List Nat) (e : Err),
    roots.foldlM (fun visited target => dfs succ lim target visited []) vis = .error e →
    BadChain succ n lim e := by
  induction roots with
  | nil => intro vis e h; simp only [List.foldlM_nil] at h; cases h
  | cons r roots ih =>
    intro vis e h
    simp only [List.foldlM_cons] at h
    cases hd : dfs succ lim r vis [] with
    | error e' =>
      rw [hd] at h; cases h
      exact dfs_error n hsucc lim lim r vis [] e hd (hr r (by simp)) (by simp) (by simp) (by simp)
        (List.IsChain.singleton _) (by simp)
    | ok v1 => rw [hd] at h; exact ih (fun x hx => hr x (by simp [hx])) v1 e h

theorem chain_cycle {p : List Nat} {d : Nat} (hd : d ∈ p)
    (hc : List.IsChain (Edge succ) (p ++ [d])) : TransGen (Edge succ) d d := by
  obtain ⟨a, b, rfl⟩ := List.append_of_mem hd
  rw [List.append_assoc, List.isChain_append] at hc
  have hc := hc.2.1
  have : ∀ (l : List Nat) (x y : Nat), List.IsChain (Edge succ) (x :: l ++ [y]) →
      TransGen (Edge succ) x y := by
    intro l
    induction l with
    | nil => intro x y h; simp at h; exact TransGen.single h
    | cons z l ih =>
      intro x y h
      simp only [List.cons_append, List.isChain_cons_cons] at h
      exact TransGen.head h.1 (ih z y h.2)
  exact this b d d hc

end dfs

/-! ### the whole constructor -/

theorem forM_ok {α : Type*} (l : List α) (f : α → Except Err Unit) (h : ∀ x ∈ l, f x = .ok ()) :
    l.forM f = .ok () := by
  induction l with
  | nil => rfl
  | cons a l ih =>
    have := ih (fun x hx => h x (by simp [hx]))
    have ha := h a (by simp)
    simp only [List.forM, ha]
    exact this

theorem doubleDependsCheck_ok (ts : List DTarget) : doubleDependsCheck ts = .ok () := by
  apply forM_ok
  intro t _
  apply forM_ok
  intro d hd
  have hn : t.deps.Nodup := nodup_mkset _
  have : (t.deps.filter (fun dep2 => d = dep2)).length ≤ 1 := by
    have h1 : t.deps.filter (fun dep2 => d = dep2) = t.deps.filter (· == d) := by
      apply List.filter_congr; intro x _; rw [Bool.eq_iff_iff]; simp only [decide_eq_true_eq, beq_iff_eq]; exact eq_comm
    rw [h1, ← List.countP_eq_length_filter]
    exact List.nodup_iff_count_le_one.1 hn d
  rw [if_neg (by omega)]

theorem denotes_of_name {ts : List DTarget} {nm : String} (h : ∃ t ∈ ts, t.name = nm) :
    ∃ j, Denotes ts nm j := by
  obtain ⟨j, hj⟩ := Option.isSome_iff_exists.1 ((names_isSome ts nm).2 h)
  exact ⟨j, (names_get ts nm j).1 hj⟩

theorem not_denotes {ts : List DTarget} {nm : String} (h : ∀ j, ¬ Denotes ts nm j) :
    ∀ t ∈ ts, t.name ≠ nm := fun t ht hn => by
  obtain ⟨j, hj⟩ := denotes_of_name ⟨t, ht, hn⟩
  exact h j hj

theorem mem_deps {t : DTarget} {nm : String} : nm ∈ t.deps ↔ nm ∈ t.depsArg := mem_mkset

theorem DependsOn.lt {ts : List DTarget} {i j : Nat} (h : DependsOn ts i j) :
    i < ts.length ∧ j < ts.length := by
  obtain ⟨t, nm, h1, _, h3⟩ := h
  refine ⟨?_, h3.lt⟩
  rcases Nat.lt_or_ge i ts.length with h' | h'
  · exact h'
  · rw [List.getElem?_eq_none h'] at h1; simp at h1

/-- For closed lists the collected dictionary is the dependency relation. -/
theorem collect_ok {ts : List DTarget} (hc : Closed ts) :
    ∃ d, collectDependsOfTargets ts (namesToDeptargets ts) = .ok d ∧
      d.keys = List.range ts.length ∧
      ∀ i t, ts[i]? = some t → ∃ l, d.get i = some l ∧ l.Nodup ∧ l.length = t.deps.length ∧
        ∀ j, j ∈ l ↔ DependsOn ts i j := by
  have hres : ∀ t ∈ ts, ∃ l, resolveDeps (namesToDeptargets ts) t.deps = .ok l ∧ l.Nodup ∧
      (∀ j, j ∈ l ↔ ∃ nm ∈ t.deps, Denotes ts nm j) ∧ l.length = t.deps.length := by
    intro t ht
    apply resolve_ok ts t.deps (nodup_mkset _)
    intro nm hnm
    exact denotes_of_name (hc t ht nm (mem_deps.1 hnm))
  obtain ⟨d, h1, h2, _, h4⟩ := collect_aux_ok (namesToDeptargets ts) ts 0 [] (by
    intro t ht; obtain ⟨l, hl, _⟩ := hres t ht; exact ⟨l, hl⟩) (by simp [Dict.keys])
  refine ⟨d, h1, by simpa using h2, ?_⟩
  intro i t hi
  obtain ⟨l, g1, g2⟩ := h4 i t hi
  obtain ⟨l', k1, k2, k3, k4⟩ := hres t (List.mem_of_getElem? hi)
  rw [g1] at k1; cases k1
  refine ⟨l, by simpa using g2, k2, k4, ?_⟩
  intro j
  rw [k3]
  constructor
  · rintro ⟨nm, hn, hd⟩; exact ⟨t, nm, hi, mem_deps.1 hn, hd⟩
  · rintro ⟨t', nm, hi', hn, hd⟩
    rw [hi] at hi'; cases hi'
    exact ⟨nm, mem_deps.2 hn, hd⟩

theorem collect_err {ts : List DTarget} (hc : ¬ Closed ts) :
    ∃ nm, collectDependsOfTargets ts (namesToDeptargets ts) = .error (.unknown nm) ∧
      (∃ t ∈ ts, nm ∈ t.depsArg) ∧ ∀ t ∈ ts, t.name ≠ nm := by
  have hc' : ∃ t ∈ ts, ∃ nm ∈ t.depsArg, ∀ t' ∈ ts, t'.name ≠ nm := by
    unfold Closed at hc; push Not at hc; exact hc
  obtain ⟨t, ht, nm, hnm, hno⟩ := hc'
  have hnd : ∀ j, ¬ Denotes ts nm j := by
    rintro j ⟨⟨t', h1, h2⟩, _⟩; exact hno t' (List.mem_of_getElem? h1) h2
  obtain ⟨nm', _, _, h3⟩ := resolve_err ts t.deps [] ⟨nm, mem_deps.2 hnm, hnd⟩
  obtain ⟨t2, ht2, e, g1, g2⟩ := collect_aux_err (namesToDeptargets ts) ts 0 [] ⟨t, ht, _, h3⟩
  have : ∃ nm ∈ t2.deps, ∀ j, ¬ Denotes ts nm j := by
    by_contra hcon
    push Not at hcon
    obtain ⟨l, hl, _⟩ := resolve_ok ts t2.deps (nodup_mkset _) hcon
    rw [hl] at g1; cases g1
  obtain ⟨nm2, k1, k2, k3⟩ := resolve_err ts t2.deps [] this
  have k3' : resolveDeps (namesToDeptargets ts) t2.deps = .error (.unknown nm2) := k3
  rw [k3'] at g1; cases g1
  exact ⟨nm2, g2, ⟨t2, ht2, mem_deps.1 k1⟩, not_denotes k2⟩

theorem mem_nonDependable {ts : List DTarget} {i : Nat} :
    i ∈ nonDependable ts ↔ ∃ t, ts[i]? = some t ∧ t.depsArg = [] := by
  simp only [nonDependable, List.mem_map, List.mem_filter, decide_eq_true_eq, Prod.exists,
    List.mk_mem_zipIdx_iff_getElem?]
  constructor
  · rintro ⟨t, j, ⟨h1, h2⟩, rfl⟩
    refine ⟨t, h1, ?_⟩
    rw [List.length_eq_zero_iff] at h2
    rw [List.eq_nil_iff_forall_not_mem]
    intro nm hnm
    have := mem_deps.2 hnm
    rw [h2] at this; simp at this
  · rintro ⟨t, h1, h2⟩
    refine ⟨t, i, ⟨h1, ?_⟩, rfl⟩
    simp [DTarget.deps, h2, mkset]

theorem nodup_nonDependable (ts : List DTarget) : (nonDependable ts).Nodup := by
  unfold nonDependable
  have : (ts.zipIdx.filter (fun p => p.1.deps.length = 0)).Sublist ts.zipIdx := List.filter_sublist
  have h2 := this.map (·.2)
  refine h2.nodup ?_
  have : ts.zipIdx.map (·.2) = List.range ts.length := by
    rw [List.zipIdx_map_snd, List.range_eq_range']
  rw [this]; exact List.nodup_range

/-- the successor function used by the constructor -/
structure Prep (order : Nat → List Nat → List Nat) (ts : List DTarget)
    (inv : Nat → List Nat) (dep : Nat → List Nat) : Prop where
  cons : ∀ lim, construct order lim ts =
    if (nonDependable ts).length = 0 then .error .noRoot
    else (connectivityCheck inv lim ts.length (nonDependable ts)).bind fun _ =>
      .ok { size := ts.length
            depcount := fun i => ((ts[i]?).map (fun t => t.deps.length)).getD 0
            inv := inv
            roots := nonDependable ts }
  inv_nodup : ∀ j, (inv j).Nodup
  mem_inv : ∀ i j, i ∈ inv j ↔ DependsOn ts i j
  dep_nodup : ∀ i, (dep i).Nodup
  mem_dep : ∀ i j, j ∈ dep i ↔ DependsOn ts i j
  dep_len : ∀ i t, ts[i]? = some t → (dep i).length = t.deps.length

theorem prep {order : Nat → List Nat → List Nat} (ho : IsOrder order) {ts : List DTarget}
    (hc : Closed ts) : ∃ inv dep, Prep order ts inv dep := by
  obtain ⟨d, h1, h2, h3⟩ := collect_ok hc
  have hmemd : ∀ p ∈ d, ∃ t, ts[p.1]? = some t := by
    intro p hp
    have hk : p.1 ∈ d.keys := List.mem_map.2 ⟨p, hp, rfl⟩
    rw [h2, List.mem_range] at hk
    exact ⟨ts[p.1], List.getElem?_eq_getElem hk⟩
  have hnd : d.keys.Nodup := by rw [h2]; exact List.nodup_range
  have hcl : ∀ p ∈ d, ∀ x ∈ p.2, x ∈ d.keys := by
    intro p hp x hx
    obtain ⟨t, ht⟩ := hmemd p hp
    obtain ⟨l, g1, _, _, g4⟩ := h3 p.1 t ht
    have := Dict.get_of_mem hnd (show (p.1, p.2) ∈ d from hp)
    rw [this] at g1; cases g1
    rw [h2, List.mem_range]
    exact ((g4 x).1 hx).lt.2
  obtain ⟨iv, i1, i2, i3⟩ := invert_ok d hnd hcl
  have hget : ∀ j, (((iv.get j).getD []).Nodup) ∧ ∀ i, i ∈ (iv.get j).getD [] ↔ DependsOn ts i j := by
    intro j
    by_cases hj : j ∈ d.keys
    · obtain ⟨s, hs, hn, hm⟩ := i3 j hj
      rw [hs]
      refine ⟨hn, fun i => ?_⟩
      simp only [Option.getD_some, hm]
      constructor
      · rintro ⟨ds, hm1, hm2⟩
        obtain ⟨t, ht⟩ := hmemd _ hm1
        obtain ⟨l, g1, _, _, g4⟩ := h3 i t ht
        rw [Dict.get_of_mem hnd hm1] at g1; cases g1
        exact (g4 j).1 hm2
      · intro hdep
        have hi := hdep.lt.1
        obtain ⟨l, g1, _, _, g4⟩ := h3 i ts[i] (List.getElem?_eq_getElem hi)
        exact ⟨l, Dict.mem_of_get g1, (g4 j).2 hdep⟩
    · have hj' : j ∉ iv.keys := by rw [i2]; exact hj
      rw [(Dict.get_eq_none_iff iv j).2 hj']
      refine ⟨by simp, fun i => ?_⟩
      simp only [Option.getD_none, List.not_mem_nil, false_iff]
      intro hdep
      rw [h2, List.mem_range] at hj
      exact hj hdep.lt.2
  have hdget : ∀ i, ((d.get i).getD []).Nodup ∧ (∀ j, j ∈ (d.get i).getD [] ↔ DependsOn ts i j) ∧
      ∀ t, ts[i]? = some t → ((d.get i).getD []).length = t.deps.length := by
    intro i
    cases hi : ts[i]? with
    | some t =>
      obtain ⟨l, g1, g2, g3, g4⟩ := h3 i t hi
      rw [g1]; exact ⟨g2, g4, by rintro _ ⟨⟩; exact g3⟩
    | none =>
      have : i ∉ d.keys := by
        rw [h2, List.mem_range]; intro hlt
        rw [List.getElem?_eq_getElem hlt] at hi; simp at hi
      rw [(Dict.get_eq_none_iff d i).2 this]
      refine ⟨by simp, fun j => ?_, by simp⟩
      simp only [Option.getD_none, List.not_mem_nil, false_iff]
      rintro ⟨t, nm, ht, _⟩
      rw [hi] at ht; simp at ht
  refine ⟨fun j => order j ((iv.get j).getD []), fun i => (d.get i).getD [], ?_, ?_, ?_, ?_, ?_, ?_⟩
  · intro lim
    unfold construct
    simp only [doubleDependsCheck_ok, h1, bind, Except.bind, i1]
    split
    · rfl
    · rfl
  · intro j; exact (ho j _).nodup_iff.2 (hget j).1
  · intro i j; rw [(ho j _).mem_iff]; exact (hget j).2 i
  · intro i; exact (hdget i).1
  · intro i j; exact (hdget i).2.1 j
  · intro i t ht; exact (hdget i).2.2 t ht

theorem Prep.edge {order ts inv dep} (P : Prep order ts inv dep) (a b : Nat) :
    Edge inv a b ↔ DependsOn ts b a := P.mem_inv b a

theorem Prep.trans {order ts inv dep} (P : Prep order ts inv dep) (a b : Nat) :
    TransGen (Edge inv) a b ↔ TransGen (DependsOn ts) b a := by
  have : Edge inv = Function.swap (DependsOn ts) := by
    funext a b; exact propext (P.edge a b)
  rw [this, transGen_swap]

theorem noRoot_iff (ts : List DTarget) : (nonDependable ts).length = 0 ↔ ¬ HasRoot ts := by
  rw [List.length_eq_zero_iff, List.eq_nil_iff_forall_not_mem]
  constructor
  · rintro h ⟨t, ht, hd⟩
    obtain ⟨i, hi⟩ := List.getElem?_of_mem ht
    exact h i (mem_nonDependable.2 ⟨t, hi, hd⟩)
  · rintro h i hi
    obtain ⟨t, ht, hd⟩ := mem_nonDependable.1 hi
    exact h ⟨t, List.mem_of_getElem? ht, hd⟩

/-- A finite acyclic relation has a rank function. -/
theorem exists_rank {ts : List DTarget} (h : ¬ Cyclic ts) :
    ∃ r : Nat → Nat, ∀ i j, DependsOn ts i j → r j < r i := by
  classical
  refine ⟨fun i => ((Finset.range ts.length).filter (fun k => TransGen (DependsOn ts) i k)).card, ?_⟩
  intro i j hij
  apply Finset.card_lt_card
  rw [Finset.ssubset_iff_of_subset]
  · refine ⟨j, ?_, ?_⟩
    · simp only [Finset.mem_filter, Finset.mem_range]; exact ⟨hij.lt.2, .single hij⟩
    · simp only [Finset.mem_filter, not_and]; intro _ hjj; exact h ⟨j, hjj⟩
  · intro k
    simp only [Finset.mem_filter]
    rintro ⟨hk, hjk⟩
    exact ⟨hk, .head hij hjk⟩

theorem Prep.wf {order ts inv dep} (P : Prep order ts inv dep) (hac : ¬ Cyclic ts) :
    WF { size := ts.length
         depcount := fun i => ((ts[i]?).map (fun t => t.deps.length)).getD 0
         inv := inv
         roots := nonDependable ts } dep where
  nodup i _ := P.dep_nodup i
  lt i _ j hj := ((P.mem_dep i j).1 hj).lt.2
  depcount i hi := by
    have : ts[i]? = some ts[i] := List.getElem?_eq_getElem hi
    simp only [this, Option.map_some, Option.getD_some]
    exact (P.dep_len i _ this).symm
  inv_nodup := P.inv_nodup
  mem_inv i j _ := by
    rw [P.mem_inv, P.mem_dep]
    exact ⟨fun h => ⟨h.lt.1, h⟩, fun h => h.2⟩
  roots_nodup := nodup_nonDependable ts
  mem_roots i := by
    rw [mem_nonDependable]
    constructor
    · rintro ⟨t, ht, hd⟩
      have hi : i < ts.length := by
        rcases Nat.lt_or_ge i ts.length with h' | h'
        · exact h'
        · rw [List.getElem?_eq_none h'] at ht; simp at ht
      refine ⟨hi, ?_⟩
      rw [List.eq_nil_iff_forall_not_mem]
      intro j hj
      obtain ⟨t', nm, h1, h2, _⟩ := (P.mem_dep i j).1 hj
      rw [ht] at h1; cases h1
      rw [hd] at h2; simp at h2
    · rintro ⟨hi, hd⟩
      have ht : ts[i]? = some ts[i] := List.getElem?_eq_getElem hi
      refine ⟨ts[i], ht, ?_⟩
      have := P.dep_len i _ ht
      rw [hd] at this
      rw [List.eq_nil_iff_forall_not_mem]
      intro nm hnm
      have h2 := mem_deps.2 hnm
      have h3 : ts[i].deps = [] := List.length_eq_zero_iff.1 this.symm
      rw [h3] at h2; simp at h2
  rank := by
    obtain ⟨r, hr⟩ := exists_rank hac
    exact ⟨r, fun i _ j hj => hr i j ((P.mem_dep i j).1 hj)⟩

/-- Result of the connectivity check. -/
theorem Prep.connectivity {order ts inv dep} (P : Prep order ts inv dep) (lim : Nat) :
    (connectivityCheck inv lim ts.length (nonDependable ts) = .ok () → ¬ Cyclic ts) ∧
    (∀ nv, connectivityCheck inv lim ts.length (nonDependable ts) = .error (.connectivity nv) →
      nv ≠ [] ∧ ∀ i, i ∈ nv ↔ i < ts.length ∧
        ¬ ∃ r ∈ nonDependable ts, ReflTransGen (DependsOn ts) i r) ∧
    (∀ e, connectivityCheck inv lim ts.length (nonDependable ts) = .error e →
      (∃ nv, e = .connectivity nv) ∨
      (e = .recursion ∧ ¬ DepthWithin ts lim) ∨
      ∃ p d, e = .circular (p ++ [d]) ∧ d ∈ p ∧
        List.IsChain (fun a b => DependsOn ts b a) (p ++ [d])) := by
  have hroots : ∀ r ∈ nonDependable ts, ∀ x, ¬ Edge inv x r := by
    intro r hr x hx
    obtain ⟨t, ht, hd⟩ := mem_nonDependable.1 hr
    obtain ⟨t', nm, h1, h2, _⟩ := (P.edge x r).1 hx
    rw [ht] at h1; cases h1
    rw [hd] at h2; simp at h2
  have hrlt : ∀ r ∈ nonDependable ts, r < ts.length := by
    intro r hr
    obtain ⟨t, ht, _⟩ := mem_nonDependable.1 hr
    rcases Nat.lt_or_ge r ts.length with h' | h'
    · exact h'
    · rw [List.getElem?_eq_none h'] at ht; simp at ht
  have hedge : Edge inv = fun a b => DependsOn ts b a := by
    funext a b; exact propext (P.edge a b)
  cases hv : (nonDependable ts).foldlM (fun visited target => dfs inv lim target visited [])
      ([] : List Nat) with
  | error e' =>
    have hcc : connectivityCheck inv lim ts.length (nonDependable ts) = .error e' := by
      simp only [connectivityCheck, hv]; rfl
    rw [hcc]
    refine ⟨by simp, ?_, ?_⟩
    · intro nv he; exfalso
      -- no connectivity error comes out of the search
      have : ∀ fuel t v p nv, dfs inv fuel t v p ≠ .error (.connectivity nv) := by
        intro fuel
        induction fuel with
        | zero => intro t v p nv h; simp [dfs] at h
        | succ fuel ih =>
          intro t v p nv h
          rw [dfs_succ] at h
          have : ∀ (cs v : List Nat),
              cs.foldlM (dfsBody inv fuel (p ++ [t])) v ≠ .error (.connectivity nv) := by
            intro cs
            induction cs with
            | nil => intro v h; simp only [List.foldlM_nil] at h; cases h
            | cons c cs ihc =>
              intro v h
              simp only [List.foldlM_cons] at h
              cases hb : dfsBody inv fuel (p ++ [t]) v c with
              | ok v1 => rw [hb] at h; exact ihc v1 h
              | error e1 =>
                rw [hb] at h; cases h
                unfold dfsBody at hb
                split at hb
                · cases hb
                · split at hb
                  · cases hb
                  · exact ih _ _ _ _ hb
          exact this _ _ h
      have hf : ∀ (rs v : List Nat) nv,
          rs.foldlM (fun visited target => dfs inv lim target visited []) v
            ≠ .error (.connectivity nv) := by
        intro rs
        induction rs with
        | nil => intro v nv h; simp only [List.foldlM_nil] at h; cases h
        | cons r rs ihr =>
          intro v nv h
          simp only [List.foldlM_cons] at h
          cases hb : dfs inv lim r v [] with
          | ok v1 => rw [hb] at h; exact ihr v1 nv h
          | error e1 => rw [hb] at h; cases h; exact this _ _ _ _ _ hb
      cases he
      exact hf _ _ _ hv
    · intro e he
      cases he
      right
      rcases roots_error (succ := inv) ts.length (by
        intro x y hy; exact ((P.mem_inv y x).1 hy).lt.1) lim _ hrlt _ _ hv with
        ⟨h0, l, h1, h2, h3, h4⟩ | ⟨p, d, h1, h2, h3⟩
      · left
        refine ⟨h0, fun hd => ?_⟩
        have := hd l h1 h2 (by rw [← hedge]; exact h3)
        omega
      · exact Or.inr ⟨p, d, h1, h2, by rw [← hedge]; exact h3⟩
  | ok vis =>
    obtain ⟨D, h1, _, h3, h4⟩ := roots_ok (succ := inv) lim _ _ _ hv
      ⟨by simp, by simp, by simp⟩ (nodup_nonDependable ts) (by simp) hroots
    have hvn : vis.Nodup := h1 (by simp)
    have hvr : ∀ x, x ∈ vis ↔ ∃ r ∈ nonDependable ts, ReflTransGen (Edge inv) r x := by
      intro x
      constructor
      · intro hx; rcases h4 x hx with hx | hx
        · simp at hx
        · exact hx
      · rintro ⟨r, hr, hx⟩
        rcases reflTransGen_iff_eq_or_transGen.1 hx with rfl | hx
        · exact h3 _ hr
        · exact (D.reach (h3 r hr) (by simp) hx).1
    have hvlt : ∀ x ∈ vis, x < ts.length := by
      intro x hx
      obtain ⟨r, hr, hx⟩ := (hvr x).1 hx
      rcases ReflTransGen.cases_tail hx with rfl | ⟨y, _, hy⟩
      · exact hrlt _ hr
      · exact ((P.edge y x).1 hy).lt.1
    have hcc : connectivityCheck inv lim ts.length (nonDependable ts) =
        if vis.length ≠ ts.length then
          .error (.connectivity ((List.range ts.length).filter (fun i => i ∉ vis)))
        else .ok () := by
      simp only [connectivityCheck, hv]; rfl
    have hsub : vis.Subperm (List.range ts.length) :=
      hvn.subperm (fun x hx => by simpa using hvlt x hx)
    rw [hcc]
    refine ⟨?_, ?_, ?_⟩
    · intro h
      split at h
      · cases h
      · rename_i hlen
        simp only [ne_eq, not_not] at hlen
        have hperm : vis.Perm (List.range ts.length) :=
          hsub.perm_of_length_le (by simp [hlen])
        rintro ⟨i, hi⟩
        have hilt : i < ts.length := by
          obtain ⟨y, hy, _⟩ := TransGen.head'_iff.1 hi
          exact hy.lt.1
        exact D.acyc i (hperm.mem_iff.2 (by simpa using hilt)) (by simp) ((P.trans i i).2 hi)
    · intro nv h
      split at h
      · rename_i hlen
        cases h
        constructor
        · intro hnil
          apply hlen
          have hperm : (List.range ts.length).Subperm vis := by
            apply List.Nodup.subperm List.nodup_range
            intro x hx
            by_contra hxv
            have : x ∈ (List.range ts.length).filter (fun i => i ∉ vis) := by
              simp only [List.mem_filter]; exact ⟨hx, by simpa using hxv⟩
            rw [hnil] at this; simp at this
          have a := hperm.length_le
          have b := hsub.length_le
          simp at a b; omega
        · intro i
          simp only [List.mem_filter, List.mem_range, decide_eq_true_eq, hvr]
          have : ∀ r, ReflTransGen (Edge inv) r i ↔ ReflTransGen (DependsOn ts) i r := by
            intro r
            have : Edge inv = Function.swap (DependsOn ts) := by
              funext a b; exact propext (P.edge a b)
            rw [this, reflTransGen_swap]
          simp only [this]
      · cases h
    · intro e h
      split at h
      · cases h; exact Or.inl ⟨_, rfl⟩
      · cases h

/-- In an acyclic closed list every target reaches a target without dependencies. -/
theorem reaches_root {ts : List DTarget} (hc : Closed ts) (hac : ¬ Cyclic ts) :
    ∀ i < ts.length, ∃ r ∈ nonDependable ts, ReflTransGen (DependsOn ts) i r := by
  obtain ⟨rk, hrk⟩ := exists_rank hac
  have : ∀ m i, rk i ≤ m → i < ts.length →
      ∃ r ∈ nonDependable ts, ReflTransGen (DependsOn ts) i r := by
    intro m
    induction m with
    | zero =>
      intro i hm hi
      have ht : ts[i]? = some ts[i] := List.getElem?_eq_getElem hi
      refine ⟨i, mem_nonDependable.2 ⟨_, ht, ?_⟩, .refl⟩
      rw [List.eq_nil_iff_forall_not_mem]
      intro nm hnm
      obtain ⟨j, hj⟩ := denotes_of_name (hc _ (List.mem_of_getElem? ht) nm hnm)
      have := hrk i j ⟨_, nm, ht, hnm, hj⟩
      omega
    | succ m ih =>
      intro i hm hi
      have ht : ts[i]? = some ts[i] := List.getElem?_eq_getElem hi
      by_cases hd : ts[i].depsArg = []
      · exact ⟨i, mem_nonDependable.2 ⟨_, ht, hd⟩, .refl⟩
      · obtain ⟨nm, hnm⟩ := List.exists_mem_of_ne_nil _ hd
        obtain ⟨j, hj⟩ := denotes_of_name (hc _ (List.mem_of_getElem? ht) nm hnm)
        have hij : DependsOn ts i j := ⟨_, nm, ht, hnm, hj⟩
        have := hrk i j hij
        obtain ⟨r, hr, hr'⟩ := ih j (by omega) hij.lt.2
        exact ⟨r, hr, .head hij hr'⟩
  intro i hi
  exact this (rk i) i (le_refl _) hi

theorem construct_unknown {order : Nat → List Nat → List Nat} {lim : Nat} {ts : List DTarget}
    (hc : ¬ Closed ts) :
    ∃ nm, construct order lim ts = .error (.unknown nm) ∧
      (∃ t ∈ ts, nm ∈ t.depsArg) ∧ ∀ t ∈ ts, t.name ≠ nm := by
  obtain ⟨nm, h1, h2, h3⟩ := collect_err hc
  refine ⟨nm, ?_, h2, h3⟩
  unfold construct
  simp only [doubleDependsCheck_ok, h1]
  rfl

end Licant.Solver
