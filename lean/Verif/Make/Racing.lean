/-
The file cache used by several threads while files change: C156.
-/
import Verif.Make.Model

set_option autoImplicit false

namespace Licant.Make.Racing
open Licant.Py

variable {α : Type}

/-! ### model -/

/-- what a thread is about to do; `q` tells whether `update_info` was called by `get_info` -/
inductive Pc where
  /-- not in a call -/
  | idle
  /-- cache.py:16-17 `update_info(p)`, about to call `os.path.exists` (cache.py:10) -/
  | refreshing (p : String) (q : Bool)
  /-- the file exists, about to call `os.stat` (cache.py:12) -/
  | found (p : String) (q : Bool)
  /-- about to store the status (cache.py:17) -/
  | info (p : String) (q : Bool) (i : Info)
  /-- cache.py:19-25 `get_info(p)`, about to look into the dictionary -/
  | asking (p : String)
  /-- about to look into the dictionary again (cache.py:28) -/
  | reading (p : String)
  /-- the call about `p` ended with an exception -/
  | raised (p : String)
  deriving DecidableEq

/-- the files, the dictionary of `FileCache`, and the threads -/
structure CSt (α : Type) where
  fs : FS α
  cache : FileCache
  pc : Nat → Pc

/-- what happens -/
inductive CEv (α : Type) where
  /-- somebody changes files -/
  | change (fs : FS α)
  /-- the thread calls `update_info` -/
  | refresh (k : Nat) (p : String)
  /-- the thread calls `get_info` -/
  | query (k : Nat) (p : String)
  /-- the thread does the next thing: one system call or one access to the dictionary -/
  | run (k : Nat)

/-- the thread `k` is at `c` now -/
def CSt.goto (s : CSt α) (k : Nat) (c : Pc) : CSt α := { s with pc := fun j => if j = k then c else s.pc j }

/-- cache.py:8-28, one system call or one access to the dictionary at a time.  `os.stat` raises if there is no file any more; the second
look into the dictionary would raise `KeyError`. -/
def CSt.run (s : CSt α) (k : Nat) : Option (CSt α) :=
  match s.pc k with
  | .idle => none
  | .raised _ => none
  | .refreshing p q => match s.fs p with
    | none => some (s.goto k (.info p q ⟨false, 0⟩))
    | some _ => some (s.goto k (.found p q))
  | .found p q => match s.fs p with
    | none => some (s.goto k (.raised p))
    | some e => some (s.goto k (.info p q ⟨true, e.mtime⟩))
  | .info p q i => some ({ s with cache := s.cache.set p i }.goto k (if q then .reading p else .idle))
  | .asking p => match s.cache.get p with
    | some _ => some (s.goto k .idle)
    | none => some (s.goto k (.refreshing p true))
  | .reading p => match s.cache.get p with
    | some _ => some (s.goto k .idle)
    | none => some (s.goto k (.raised p))

/-- one event; a thread calls `update_info` (cache.py:16-17) or `get_info` (cache.py:19-28) if it is in no other call -/
def CSt.step (s : CSt α) : CEv α → Option (CSt α)
  | .change fs => some { s with fs := fs }
  | .refresh k p => if s.pc k = .idle then some (s.goto k (.refreshing p false)) else none
  | .query k p => if s.pc k = .idle then some (s.goto k (.asking p)) else none
  | .run k => s.run k

/-- a process with files `fs`, before anything was asked: the dictionary is empty (cache.py:5-6) -/
def CSt.new (fs : FS α) : CSt α := ⟨fs, [], fun _ => .idle⟩

/-- what may happen from `s` on -/
inductive CSt.Exec (s : CSt α) : List (CEv α) → CSt α → Prop
  | nil : Exec s [] s
  | snoc {l : List (CEv α)} {s1 s2 : CSt α} {e : CEv α} : Exec s l s1 → s1.step e = some s2 → Exec s (l ++ [e]) s2

/-! ### specification -/

/-- the files after the first `t` events -/
def fsAt (fs : FS α) (l : List (CEv α)) (t : Nat) : FS α :=
  (l.take t).foldl (fun f e => match e with | .change f' => f' | _ => f) fs

/-- If the thread `k` goes on now, its `get_info(p)` returns `i`. -/
def CSt.Answers (s : CSt α) (k : Nat) (p : String) (i : Info) : Prop :=
  (s.pc k = .asking p ∨ s.pc k = .reading p) ∧ s.cache.get p = some i

/-- the thread is in a call `get_info(p)` -/
def Pc.Asks (p : String) : Pc → Prop
  | .asking p' => p' = p
  | .refreshing p' q => p' = p ∧ q = true
  | .found p' q => p' = p ∧ q = true
  | .info p' q _ => p' = p ∧ q = true
  | .reading p' => p' = p
  | _ => False

/-- the thread is in the midst of finding out the status of `p` -/
def Pc.Updates (p : String) : Pc → Prop
  | .refreshing p' _ => p' = p
  | .found p' _ => p' = p
  | .info p' _ _ => p' = p
  | _ => False

/-- the status of `p` at one of the moments from `n` on -/
def HeldSince (fs : FS α) (l : List (CEv α)) (n : Nat) (p : String) (i : Info) : Prop :=
  ∃ t, n ≤ t ∧ t ≤ l.length ∧ i = fileinfo (fsAt fs l t) p

/-- nobody removes files -/
def NoRemoval (fs : FS α) (l : List (CEv α)) : Prop :=
  ∀ t p, t < l.length → (fsAt fs l t p).isSome → (fsAt fs l (t + 1) p).isSome

/-! ### proofs -/

section
variable {fs : FS α} {l : List (CEv α)} {s s1 s2 : CSt α} {e : CEv α}

theorem fsAt_snoc {t : Nat} (ht : t ≤ l.length) : fsAt fs (l ++ [e]) t = fsAt fs l t := by
  unfold fsAt
  rw [List.take_append_of_le_length ht]

theorem fsAt_now (h : (CSt.new fs).Exec l s1) : s1.fs = fsAt fs l l.length := by
  induction h with
  | nil => rfl
  | @snoc l s1 s2 e _ hst ih =>
    unfold fsAt at ih ⊢
    rw [List.take_length] at ih ⊢
    rw [List.foldl_append, ← ih]
    cases e with
    | change f => cases hst; rfl
    | refresh k p => simp only [CSt.step] at hst; split at hst <;> cases hst; rfl
    | query k p => simp only [CSt.step] at hst; split at hst <;> cases hst; rfl
    | run k =>
      simp only [CSt.step, CSt.run] at hst
      split at hst
      · cases hst
      · cases hst
      · split at hst <;> cases hst <;> rfl
      · split at hst <;> cases hst <;> rfl
      · cases hst; rfl
      · split at hst <;> cases hst <;> rfl
      · split at hst <;> cases hst <;> rfl

theorem HeldSince.mono {n : Nat} {p : String} {i : Info} (h : HeldSince fs l n p i) : HeldSince fs (l ++ [e]) n p i := by
  obtain ⟨t, h1, h2, h3⟩ := h
  exact ⟨t, h1, by rw [List.length_append]; omega, by rw [fsAt_snoc h2]; exact h3⟩

theorem goto_self {k : Nat} {c : Pc} : (s.goto k c).pc k = c := by simp [CSt.goto]

theorem goto_other {j k : Nat} {c : Pc} (h : j ≠ k) : (s.goto k c).pc j = s.pc j := by simp [CSt.goto, h]

/-- a status that a thread has found comes from its last system call -/
theorem info_step {k : Nat} {p : String} {q : Bool} {i : Info} (hst : s1.step e = some s2) (h : s2.pc k = .info p q i) :
    s1.pc k = .info p q i ∨ ((s1.pc k = .refreshing p q ∨ s1.pc k = .found p q) ∧ i = fileinfo s1.fs p ∧ s2.fs = s1.fs) := by
  cases e with
  | change f => cases hst; exact Or.inl h
  | refresh j p' =>
    simp only [CSt.step] at hst
    split at hst <;> cases hst
    by_cases hj : k = j
    · subst hj; rw [goto_self] at h; cases h
    · rw [goto_other hj] at h; exact Or.inl h
  | query j p' =>
    simp only [CSt.step] at hst
    split at hst <;> cases hst
    by_cases hj : k = j
    · subst hj; rw [goto_self] at h; cases h
    · rw [goto_other hj] at h; exact Or.inl h
  | run j =>
    by_cases hj : k = j
    · subst hj
      simp only [CSt.step, CSt.run] at hst
      split at hst
      · cases hst
      · cases hst
      · rename_i p' q' hpc
        split at hst <;> rename_i hfs <;> cases hst <;> rw [goto_self] at h <;> cases h
        exact Or.inr ⟨Or.inl hpc, by unfold fileinfo; rw [hfs], rfl⟩
      · rename_i p' q' hpc
        split at hst <;> rename_i hfs <;> cases hst <;> rw [goto_self] at h <;> cases h
        exact Or.inr ⟨Or.inr hpc, by unfold fileinfo; rw [hfs], rfl⟩
      · cases hst
        rw [goto_self] at h
        split at h <;> cases h
      · split at hst <;> cases hst <;> rw [goto_self] at h <;> cases h
      · split at hst <;> cases hst <;> rw [goto_self] at h <;> cases h
    · left
      rw [← h]
      simp only [CSt.step, CSt.run] at hst
      split at hst
      · cases hst
      · cases hst
      · split at hst <;> cases hst <;> rw [goto_other hj]
      · split at hst <;> cases hst <;> rw [goto_other hj]
      · cases hst; rw [goto_other hj]
      · split at hst <;> cases hst <;> rw [goto_other hj]
      · split at hst <;> cases hst <;> rw [goto_other hj]

/-- what is in the dictionary was there, or was stored by a thread that had found it -/
theorem cache_step {p : String} {i : Info} (hst : s1.step e = some s2) (h : s2.cache.get p = some i) :
    s1.cache.get p = some i ∨ ∃ k q, e = .run k ∧ s1.pc k = .info p q i := by
  cases e with
  | change f => cases hst; exact Or.inl h
  | refresh j p' => simp only [CSt.step] at hst; split at hst <;> cases hst; exact Or.inl h
  | query j p' => simp only [CSt.step] at hst; split at hst <;> cases hst; exact Or.inl h
  | run k =>
    simp only [CSt.step, CSt.run] at hst
    split at hst
    · cases hst
    · cases hst
    · split at hst <;> cases hst <;> exact Or.inl h
    · split at hst <;> cases hst <;> exact Or.inl h
    · rename_i p' q' i' hpc
      cases hst
      have h : (s1.cache.set p' i').get p = some i := h
      rw [Dict.get_set] at h
      split at h
      · rename_i hp; cases h; subst hp; exact Or.inr ⟨k, q', rfl, hpc⟩
      · exact Or.inl h
    · split at hst <;> cases hst <;> exact Or.inl h
    · split at hst <;> cases hst <;> exact Or.inl h

/-- entries of the dictionary are only replaced -/
theorem cache_keeps {p : String} (hst : s1.step e = some s2) (h : (s1.cache.get p).isSome) : (s2.cache.get p).isSome := by
  cases e with
  | change f => cases hst; exact h
  | refresh j p' => simp only [CSt.step] at hst; split at hst <;> cases hst; exact h
  | query j p' => simp only [CSt.step] at hst; split at hst <;> cases hst; exact h
  | run k =>
    simp only [CSt.step, CSt.run] at hst
    split at hst
    · cases hst
    · cases hst
    · split at hst <;> cases hst <;> exact h
    · split at hst <;> cases hst <;> exact h
    · rename_i p' q' i' hpc
      cases hst
      show ((s1.cache.set p' i').get p).isSome
      rw [Dict.get_set]
      split
      · rfl
      · exact h
    · split at hst <;> cases hst <;> exact h
    · split at hst <;> cases hst <;> exact h

theorem CSt.Exec.append {l' : List (CEv α)} (h : s.Exec l s1) (h' : s1.Exec l' s2) : s.Exec (l ++ l') s2 := by
  induction h' with
  | nil => rw [List.append_nil]; exact h
  | snoc _ hst ih => rw [← List.append_assoc]; exact .snoc ih hst

/-- a status found just now -/
theorem true_now {n : Nat} {p : String} (h : (CSt.new fs).Exec l s1) (hn : n ≤ l.length) : HeldSince fs (l ++ [e]) n p (fileinfo s1.fs p) :=
  ⟨l.length, hn, by rw [List.length_append]; omega, by rw [fsAt_snoc (le_refl _), fsAt_now h]⟩

/-- **C156**, every answer was true at one moment: whatever threads ask and refresh, and however files change meanwhile, every
status that `get_info(p)` returns is the one that `p` had at some moment since the process began. -/
theorem C156_true (h : (CSt.new fs).Exec l s) {k : Nat} {p : String} {i : Info} (ha : s.Answers k p i) : HeldSince fs l 0 p i := by
  have inv : (∀ p i, s.cache.get p = some i → HeldSince fs l 0 p i) ∧ ∀ k p q i, s.pc k = .info p q i → HeldSince fs l 0 p i := by
    clear ha
    induction h with
    | nil => exact ⟨(by intro p i h; cases h), (by intro k p q i h; cases h)⟩
    | snoc hx hst ih =>
      refine ⟨fun p i hc => ?_, fun k p q i hc => ?_⟩
      · rcases cache_step hst hc with h | ⟨k, q, _, h⟩
        · exact (ih.1 p i h).mono
        · exact (ih.2 k p q i h).mono
      · rcases info_step hst hc with h | ⟨_, rfl, _⟩
        · exact (ih.2 k p q i h).mono
        · exact true_now hx (Nat.zero_le _)
  exact inv.1 p i ha.2

/-- how the call of a thread goes on -/
theorem own_step {k : Nat} {p : String} (hst : s1.step e = some s2) :
    (s1.pc k = .refreshing p false → s2.pc k = .refreshing p false ∨ s2.pc k = .found p false ∨ ∃ i, s2.pc k = .info p false i) ∧
    (s1.pc k = .found p false → s2.pc k = .found p false ∨ s2.pc k = .raised p ∨ ∃ i, s2.pc k = .info p false i) ∧
    (∀ i, s1.pc k = .info p false i → s2.pc k = .info p false i ∨ s2.cache.get p = some i) ∧
    (s1.pc k = .raised p → s2.pc k = .raised p) := by
  cases e with
  | change f => cases hst; exact ⟨Or.inl, Or.inl, fun i h => Or.inl h, id⟩
  | refresh j p' =>
    simp only [CSt.step] at hst
    split at hst <;> cases hst
    rename_i hidle
    by_cases hj : k = j
    · subst hj
      rw [hidle]
      exact ⟨(by intro h; cases h), (by intro h; cases h), (by intro i h; cases h), (by intro h; cases h)⟩
    · rw [goto_other hj]; exact ⟨Or.inl, Or.inl, fun i h => Or.inl h, id⟩
  | query j p' =>
    simp only [CSt.step] at hst
    split at hst <;> cases hst
    rename_i hidle
    by_cases hj : k = j
    · subst hj
      rw [hidle]
      exact ⟨(by intro h; cases h), (by intro h; cases h), (by intro i h; cases h), (by intro h; cases h)⟩
    · rw [goto_other hj]; exact ⟨Or.inl, Or.inl, fun i h => Or.inl h, id⟩
  | run j =>
    by_cases hj : k = j
    · subst hj
      simp only [CSt.step, CSt.run] at hst
      refine ⟨fun h => ?_, fun h => ?_, fun i h => ?_, fun h => ?_⟩
      · rw [h] at hst
        simp only at hst
        split at hst <;> cases hst <;> rw [goto_self]
        · exact Or.inr (Or.inr ⟨_, rfl⟩)
        · exact Or.inr (Or.inl rfl)
      · rw [h] at hst
        simp only at hst
        split at hst <;> cases hst <;> rw [goto_self]
        · exact Or.inr (Or.inl rfl)
        · exact Or.inr (Or.inr ⟨_, rfl⟩)
      · rw [h] at hst
        cases hst
        right
        show (s1.cache.set p i).get p = some i
        rw [Dict.get_set, if_pos rfl]
      · rw [h] at hst; cases hst
    · have : s2.pc k = s1.pc k := by
        simp only [CSt.step, CSt.run] at hst
        split at hst
        · cases hst
        · cases hst
        · split at hst <;> cases hst <;> rw [goto_other hj]
        · split at hst <;> cases hst <;> rw [goto_other hj]
        · cases hst; rw [goto_other hj]
        · split at hst <;> cases hst <;> rw [goto_other hj]
        · split at hst <;> cases hst <;> rw [goto_other hj]
      rw [this]
      exact ⟨Or.inl, Or.inl, fun i h => Or.inl h, id⟩

/-- **C156**, proved part: a thread calls `update_info(p)` when no other thread is finding out the status of `p`.  Once the call has
returned, whatever the threads do, every `get_info(p)` returns the status of `p` at a moment since the beginning of that call.
Missing: refreshes of the same file that overlap (`C156_violated_overlap`), and that no call raises (`C156_violated`; see
`C156_returns`). -/
theorem C156_partial {a b c : List (CEv α)} {s0 s3 s4 : CSt α} {k : Nat} {p : String} (ha : (CSt.new fs).Exec a s0)
    (hquiet : ∀ j, ¬ (s0.pc j).Updates p) (h1 : s0.step (.refresh k p) = some s1) (hb : s1.Exec b s3) (hidle : s3.pc k = .idle)
    (hc : s3.Exec c s4) {j : Nat} {i : Info} (hans : s4.Answers j p i) :
    HeldSince fs (a ++ .refresh k p :: b ++ c) a.length p i := by
  have hx1 : (CSt.new fs).Exec (a ++ [.refresh k p]) s1 := .snoc ha h1
  have e1 : ∀ r : List (CEv α), a ++ CEv.refresh k p :: r = a ++ [CEv.refresh k p] ++ r := by intro r; simp
  rw [e1]
  -- until the call returns
  have inv1 : (∀ j q i, s3.pc j = .info p q i → HeldSince fs (a ++ [.refresh k p] ++ b) a.length p i) ∧
      (s3.pc k = .refreshing p false ∨ s3.pc k = .found p false ∨ (∃ i, s3.pc k = .info p false i) ∨ s3.pc k = .raised p ∨
        ∀ i, s3.cache.get p = some i → HeldSince fs (a ++ [.refresh k p] ++ b) a.length p i) := by
    clear hc hidle
    induction hb with
    | nil =>
      have hs : s0.pc k = .idle ∧ s1 = s0.goto k (.refreshing p false) := by
        simp only [CSt.step] at h1
        split at h1 <;> cases h1
        rename_i hi
        exact ⟨hi, rfl⟩
      refine ⟨fun j q i hj => ?_, Or.inl (by rw [hs.2, goto_self])⟩
      exfalso
      rw [hs.2] at hj
      by_cases hjk : j = k
      · subst hjk; rw [goto_self] at hj; cases hj
      · rw [goto_other hjk] at hj
        apply hquiet j
        rw [hj]
        rfl
    | @snoc l' s' s'' e hx hst ih =>
      rw [← List.append_assoc]
      have hfull := hx1.append hx
      have hlen : a.length ≤ (a ++ [CEv.refresh k p] ++ l').length := by simp only [List.length_append]; omega
      refine ⟨fun j q i hj => ?_, ?_⟩
      · rcases info_step hst hj with h | ⟨_, rfl, _⟩
        · exact (ih.1 j q i h).mono
        · exact true_now hfull hlen
      · obtain ⟨o1, o2, o3, o4⟩ := own_step (k := k) (p := p) hst
        have hstore : ∀ i, s''.cache.get p = some i → (∀ i, s'.cache.get p = some i → HeldSince fs (a ++ [CEv.refresh k p] ++ l') a.length p i) →
            HeldSince fs (a ++ [CEv.refresh k p] ++ l' ++ [e]) a.length p i := by
          intro i hi hall
          rcases cache_step hst hi with h | ⟨j, q, _, h⟩
          · exact (hall i h).mono
          · exact (ih.1 j q i h).mono
        rcases ih.2 with h | h | ⟨i, h⟩ | h | h
        · rcases o1 h with h | h | h
          · exact Or.inl h
          · exact Or.inr (Or.inl h)
          · exact Or.inr (Or.inr (Or.inl h))
        · rcases o2 h with h | h | h
          · exact Or.inr (Or.inl h)
          · exact Or.inr (Or.inr (Or.inr (Or.inl h)))
          · exact Or.inr (Or.inr (Or.inl h))
        · rcases o3 i h with h' | h'
          · exact Or.inr (Or.inr (Or.inl ⟨i, h'⟩))
          · refine Or.inr (Or.inr (Or.inr (Or.inr fun i' hi' => ?_)))
            rw [h'] at hi'
            cases hi'
            exact (ih.1 k false i h).mono
        · exact Or.inr (Or.inr (Or.inr (Or.inl (o4 h))))
        · exact Or.inr (Or.inr (Or.inr (Or.inr fun i hi => hstore i hi h)))
  have hfresh : ∀ i, s3.cache.get p = some i → HeldSince fs (a ++ [.refresh k p] ++ b) a.length p i := by
    rcases inv1.2 with h | h | ⟨i, h⟩ | h | h
    · rw [hidle] at h; cases h
    · rw [hidle] at h; cases h
    · rw [hidle] at h; cases h
    · rw [hidle] at h; cases h
    · exact h
  have hx3 := hx1.append hb
  -- afterwards
  have inv2 : (∀ j q i, s4.pc j = .info p q i → HeldSince fs (a ++ [.refresh k p] ++ b ++ c) a.length p i) ∧
      ∀ i, s4.cache.get p = some i → HeldSince fs (a ++ [.refresh k p] ++ b ++ c) a.length p i := by
    clear hans
    induction hc with
    | nil => rw [List.append_nil]; exact ⟨inv1.1, hfresh⟩
    | @snoc l' s' s'' e hx hst ih =>
      rw [← List.append_assoc]
      refine ⟨fun j q i hj => ?_, fun i hi => ?_⟩
      · rcases info_step hst hj with h | ⟨_, rfl, _⟩
        · exact (ih.1 j q i h).mono
        · exact true_now (hx3.append hx) (by simp only [List.length_append]; omega)
      · rcases cache_step hst hi with h | ⟨j, q, _, h⟩
        · exact (ih.2 i h).mono
        · exact (ih.1 j q i h).mono
  exact inv2.2 i hans.2

/-- the place where a thread is after a step -/
theorem pc_step {k : Nat} (hst : s1.step e = some s2) : s2.pc k = s1.pc k ∨
    (s1.pc k = .idle ∧ ((∃ p, s2.pc k = .refreshing p false) ∨ ∃ p, s2.pc k = .asking p)) ∨
    (e = .run k ∧ ((∃ p q, s1.pc k = .refreshing p q ∧ (s2.pc k = .info p q ⟨false, 0⟩ ∨ s2.pc k = .found p q ∧ (s1.fs p).isSome)) ∨
      (∃ p q, s1.pc k = .found p q ∧ ((∃ i, s2.pc k = .info p q i) ∨ s2.pc k = .raised p ∧ s1.fs p = none)) ∨
      (∃ p q i, s1.pc k = .info p q i ∧ s2.cache.get p = some i ∧ s2.pc k = if q then .reading p else .idle) ∨
      (∃ p, s1.pc k = .asking p ∧ (s2.pc k = .idle ∨ s2.pc k = .refreshing p true)) ∨
      (∃ p, s1.pc k = .reading p ∧ (s2.pc k = .idle ∨ s2.pc k = .raised p ∧ s1.cache.get p = none)))) := by
  cases e with
  | change f => cases hst; exact Or.inl rfl
  | refresh j p' =>
    simp only [CSt.step] at hst
    split at hst <;> cases hst
    rename_i hidle
    by_cases hj : k = j
    · subst hj
      rw [goto_self]
      exact Or.inr (Or.inl ⟨hidle, Or.inl ⟨p', rfl⟩⟩)
    · exact Or.inl (goto_other hj)
  | query j p' =>
    simp only [CSt.step] at hst
    split at hst <;> cases hst
    rename_i hidle
    by_cases hj : k = j
    · subst hj
      rw [goto_self]
      exact Or.inr (Or.inl ⟨hidle, Or.inr ⟨p', rfl⟩⟩)
    · exact Or.inl (goto_other hj)
  | run j =>
    by_cases hj : k = j
    · subst hj
      refine Or.inr (Or.inr ⟨rfl, ?_⟩)
      simp only [CSt.step, CSt.run] at hst
      split at hst
      · cases hst
      · cases hst
      · rename_i p q hpc
        refine Or.inl ⟨p, q, hpc, ?_⟩
        split at hst <;> rename_i hfs <;> cases hst <;> rw [goto_self]
        · exact Or.inl rfl
        · exact Or.inr ⟨rfl, by rw [hfs]; rfl⟩
      · rename_i p q hpc
        refine Or.inr (Or.inl ⟨p, q, hpc, ?_⟩)
        split at hst <;> rename_i hfs <;> cases hst <;> rw [goto_self]
        · exact Or.inr ⟨rfl, hfs⟩
        · exact Or.inl ⟨_, rfl⟩
      · rename_i p q i hpc
        cases hst
        refine Or.inr (Or.inr (Or.inl ⟨p, q, i, hpc, ?_, goto_self⟩))
        show (s1.cache.set p i).get p = some i
        rw [Dict.get_set, if_pos rfl]
      · rename_i p hpc
        refine Or.inr (Or.inr (Or.inr (Or.inl ⟨p, hpc, ?_⟩)))
        split at hst <;> cases hst <;> rw [goto_self]
        · exact Or.inl rfl
        · exact Or.inr rfl
      · rename_i p hpc
        refine Or.inr (Or.inr (Or.inr (Or.inr ⟨p, hpc, ?_⟩)))
        split at hst <;> rename_i hfs <;> cases hst <;> rw [goto_self]
        · exact Or.inl rfl
        · exact Or.inr ⟨rfl, hfs⟩
    · left
      simp only [CSt.step, CSt.run] at hst
      split at hst
      · cases hst
      · cases hst
      · split at hst <;> cases hst <;> rw [goto_other hj]
      · split at hst <;> cases hst <;> rw [goto_other hj]
      · cases hst; rw [goto_other hj]
      · split at hst <;> cases hst <;> rw [goto_other hj]
      · split at hst <;> cases hst <;> rw [goto_other hj]

/-- `KeyError` does not happen -/
theorem reading_has (h : (CSt.new fs).Exec l s) {k : Nat} {p : String} (hk : s.pc k = .reading p) : (s.cache.get p).isSome := by
  induction h generalizing k p with
  | nil => cases hk
  | snoc hx hst ih =>
    rcases pc_step (k := k) hst with h | ⟨_, ⟨p', h⟩ | ⟨p', h⟩⟩ | ⟨_, ⟨p', q, _, h⟩ | ⟨p', q, _, h⟩ | ⟨p', q, i, h0, h1, h⟩ | ⟨p', _, h⟩ | ⟨p', _, h⟩⟩
    · rw [h] at hk; exact cache_keeps hst (ih hk)
    · rw [h] at hk; cases hk
    · rw [h] at hk; cases hk
    · rcases h with h | ⟨h, _⟩ <;> rw [h] at hk <;> cases hk
    · rcases h with ⟨i, h⟩ | ⟨h, _⟩ <;> rw [h] at hk <;> cases hk
    · rw [h] at hk
      split at hk <;> cases hk
      rw [h1]; rfl
    · rcases h with h | h <;> rw [h] at hk <;> cases hk
    · rcases h with h | ⟨h, _⟩ <;> rw [h] at hk <;> cases hk

/-- **C156**, when a call raises: only if the file was there and then was not, at two moments since the process began. -/
theorem C156_raises (h : (CSt.new fs).Exec l s) {k : Nat} {p : String} (hk : s.pc k = .raised p) :
    ∃ t t', t < t' ∧ t' ≤ l.length ∧ (fsAt fs l t p).isSome ∧ fsAt fs l t' p = none := by
  have inv : (∀ k p q, s.pc k = .found p q → ∃ t < l.length, (fsAt fs l t p).isSome) ∧
      ∀ k p, s.pc k = .raised p → ∃ t t', t < t' ∧ t' ≤ l.length ∧ (fsAt fs l t p).isSome ∧ fsAt fs l t' p = none := by
    clear hk
    induction h with
    | nil => exact ⟨(by intro k p q h; cases h), (by intro k p h; cases h)⟩
    | @snoc l s1 s2 e hx hst ih =>
      have m1 : ∀ {p}, (∃ t < l.length, (fsAt fs l t p).isSome) → ∃ t < (l ++ [e]).length, (fsAt fs (l ++ [e]) t p).isSome := by
        rintro p ⟨t, h1, h2⟩
        exact ⟨t, by rw [List.length_append]; omega, by rw [fsAt_snoc (le_of_lt h1)]; exact h2⟩
      have m2 : ∀ {p}, (∃ t t', t < t' ∧ t' ≤ l.length ∧ (fsAt fs l t p).isSome ∧ fsAt fs l t' p = none) →
          ∃ t t', t < t' ∧ t' ≤ (l ++ [e]).length ∧ (fsAt fs (l ++ [e]) t p).isSome ∧ fsAt fs (l ++ [e]) t' p = none := by
        rintro p ⟨t, t', h1, h2, h3, h4⟩
        exact ⟨t, t', h1, by rw [List.length_append]; omega, by rw [fsAt_snoc (by omega)]; exact h3, by rw [fsAt_snoc h2]; exact h4⟩
      refine ⟨fun k p q hk => ?_, fun k p hk => ?_⟩ <;>
        rcases pc_step (k := k) hst with h | ⟨_, ⟨p', h⟩ | ⟨p', h⟩⟩ | ⟨_, ⟨p', q', h0, h⟩ | ⟨p', q', h0, h⟩ | ⟨p', q', i, h0, h1, h⟩ | ⟨p', h0, h⟩ | ⟨p', h0, h⟩⟩
      · rw [h] at hk; exact m1 (ih.1 k p q hk)
      · rw [h] at hk; cases hk
      · rw [h] at hk; cases hk
      · rcases h with h | ⟨h, h2⟩ <;> rw [h] at hk <;> cases hk
        refine ⟨l.length, by simp, ?_⟩
        rw [fsAt_snoc (le_refl _), ← fsAt_now hx]
        exact h2
      · rcases h with ⟨i, h⟩ | ⟨h, _⟩ <;> rw [h] at hk <;> cases hk
      · rw [h] at hk; split at hk <;> cases hk
      · rcases h with h | h <;> rw [h] at hk <;> cases hk
      · rcases h with h | ⟨h, _⟩ <;> rw [h] at hk <;> cases hk
      · rw [h] at hk; exact m2 (ih.2 k p hk)
      · rw [h] at hk; cases hk
      · rw [h] at hk; cases hk
      · rcases h with h | ⟨h, h2⟩ <;> rw [h] at hk <;> cases hk
      · rcases h with ⟨i, h⟩ | ⟨h, h2⟩ <;> rw [h] at hk <;> cases hk
        obtain ⟨t, h3, h4⟩ := ih.1 k p q' h0
        exact ⟨t, l.length, h3, by simp, by rw [fsAt_snoc (le_of_lt h3)]; exact h4, by rw [fsAt_snoc (le_refl _), ← fsAt_now hx]; exact h2⟩
      · rw [h] at hk; split at hk <;> cases hk
      · rcases h with h | h <;> rw [h] at hk <;> cases hk
      · rcases h with h | ⟨h, h2⟩ <;> rw [h] at hk <;> cases hk
        have := reading_has hx h0
        rw [h2] at this; cases this
  exact inv.2 k p hk

/-- how many system calls and accesses to the dictionary a thread still needs, at most -/
def Pc.rank : Pc → Nat
  | .idle => 0
  | .raised _ => 0
  | .reading _ => 1
  | .info _ _ _ => 2
  | .found _ _ => 3
  | .refreshing _ _ => 4
  | .asking _ => 5

/-- **C156**, calls return: if nobody removes files, no call raises.  A thread never waits for another one: it can always go on, and
returns after at most five steps of its own, which nobody else takes back. -/
theorem C156_returns (h : (CSt.new fs).Exec l s) :
    (NoRemoval fs l → ∀ k p, s.pc k ≠ .raised p) ∧
    (∀ k, s.pc k ≠ .idle → (∀ p, s.pc k ≠ .raised p) → ∃ s', s.step (.run k) = some s') ∧
    ∀ e s' k, s.step e = some s' → s.pc k ≠ .idle → (s'.pc k).rank ≤ (s.pc k).rank ∧ (s.pc k).rank ≤ 5 ∧
      (e = .run k → (s'.pc k).rank < (s.pc k).rank) := by
  refine ⟨?_, ?_, ?_⟩
  · intro hno k p hk
    obtain ⟨t, t', h1, h2, h3, h4⟩ := C156_raises h hk
    have : ∀ u, t ≤ u → u ≤ l.length → (fsAt fs l u p).isSome := by
      intro u hu
      induction hu with
      | refl => exact fun _ => h3
      | step hu ih => exact fun hle => hno _ p hle (ih (by omega))
    have := this t' (by omega) h2
    rw [h4] at this; cases this
  · intro k h1 h2
    simp only [CSt.step, CSt.run]
    split
    · rename_i hpc; exact absurd hpc h1
    · rename_i p hpc; exact absurd hpc (h2 p)
    · split <;> exact ⟨_, rfl⟩
    · split <;> exact ⟨_, rfl⟩
    · exact ⟨_, rfl⟩
    · split <;> exact ⟨_, rfl⟩
    · split <;> exact ⟨_, rfl⟩
  · intro e s' k hst hni
    have h5 : (s.pc k).rank ≤ 5 := by cases s.pc k <;> simp [Pc.rank]
    rcases pc_step (k := k) hst with h | ⟨h, _⟩ | ⟨rfl, ⟨p', q', h0, h⟩ | ⟨p', q', h0, h⟩ | ⟨p', q', i, h0, h1, h⟩ | ⟨p', h0, h⟩ | ⟨p', h0, h⟩⟩
    · refine ⟨by rw [h], h5, ?_⟩
      rintro rfl
      exfalso
      simp only [CSt.step, CSt.run] at hst
      split at hst
      · cases hst
      · cases hst
      · rename_i hpc; split at hst <;> cases hst <;> rw [goto_self, hpc] at h <;> cases h
      · rename_i hpc; split at hst <;> cases hst <;> rw [goto_self, hpc] at h <;> cases h
      · rename_i hpc; cases hst; rw [goto_self, hpc] at h; split at h <;> cases h
      · rename_i hpc; split at hst <;> cases hst <;> rw [goto_self, hpc] at h <;> cases h
      · rename_i hpc; split at hst <;> cases hst <;> rw [goto_self, hpc] at h <;> cases h
    · exact absurd h hni
    · rcases h with h | ⟨h, _⟩ <;> rw [h, h0] <;> simp [Pc.rank]
    · rcases h with ⟨i, h⟩ | ⟨h, _⟩ <;> rw [h, h0] <;> simp [Pc.rank]
    · rw [h, h0]; cases q' <;> simp [Pc.rank]
    · rcases h with h | h <;> rw [h, h0] <;> simp [Pc.rank]
    · rcases h with h | ⟨h, _⟩ <;> rw [h, h0] <;> simp [Pc.rank]

/-- **C156**, what a call is about: `get_info(p)` goes on asking about `p`, whatever happens, until it raises, or returns a status. -/
theorem C156_answers {k : Nat} {p : String} (hk : (s1.pc k).Asks p) (hst : s1.step e = some s2) :
    (s2.pc k).Asks p ∨ s2.pc k = .raised p ∨ s2.pc k = .idle ∧ e = .run k ∧ ∃ i, s1.Answers k p i := by
  have key : (s1.pc k = .asking p ∨ s1.pc k = .reading p) → e = .run k → s2.pc k = .idle → ∃ i, s1.Answers k p i := by
    intro hpc he hidle
    subst he
    have : ∃ i, s1.cache.get p = some i := by
      rcases hpc with h | h
      · simp only [CSt.step, CSt.run, h] at hst
        split at hst
        · exact ⟨_, by assumption⟩
        · cases hst; rw [goto_self] at hidle; cases hidle
      · simp only [CSt.step, CSt.run, h] at hst
        split at hst
        · exact ⟨_, by assumption⟩
        · cases hst; rw [goto_self] at hidle; cases hidle
    obtain ⟨i, hi⟩ := this
    exact ⟨i, hpc, hi⟩
  rcases pc_step (k := k) hst with h | ⟨h0, _⟩ | ⟨he, ⟨p', q, h0, h⟩ | ⟨p', q, h0, h⟩ | ⟨p', q, i, h0, _, h⟩ | ⟨p', h0, h⟩ | ⟨p', h0, h⟩⟩
  · rw [h]; exact Or.inl hk
  · rw [h0] at hk; cases hk
  · rw [h0] at hk
    obtain ⟨rfl, rfl⟩ := hk
    rcases h with h | ⟨h, _⟩ <;> rw [h] <;> exact Or.inl ⟨rfl, rfl⟩
  · rw [h0] at hk
    obtain ⟨rfl, rfl⟩ := hk
    rcases h with ⟨i, h⟩ | ⟨h, _⟩
    · rw [h]; exact Or.inl ⟨rfl, rfl⟩
    · exact Or.inr (Or.inl h)
  · rw [h0] at hk
    obtain ⟨rfl, rfl⟩ := hk
    rw [h]; exact Or.inl rfl
  · rw [h0] at hk
    cases hk
    rcases h with h | h
    · exact Or.inr (Or.inr ⟨h, he, key (Or.inl h0) he h⟩)
    · rw [h]; exact Or.inl ⟨rfl, rfl⟩
  · rw [h0] at hk
    cases hk
    rcases h with h | ⟨h, _⟩
    · exact Or.inr (Or.inr ⟨h, he, key (Or.inr h0) he h⟩)
    · exact Or.inr (Or.inl h)

end

/-! ### executions -/

/-- running a list of events -/
def CSt.runs (s : CSt α) : List (CEv α) → Option (CSt α)
  | [] => some s
  | e :: l => (s.step e).bind fun s' => s'.runs l

theorem exec_cons {s s1 s2 : CSt α} {e : CEv α} {l : List (CEv α)} (h : s.step e = some s1) (hx : s1.Exec l s2) : s.Exec (e :: l) s2 := by
  have : s.Exec ([] ++ [e]) s1 := .snoc .nil h
  exact CSt.Exec.append this hx

theorem exec_of_runs : ∀ (l : List (CEv α)) {s s' : CSt α}, s.runs l = some s' → s.Exec l s' := by
  intro l
  induction l with
  | nil => intro s s' h; cases h; exact .nil
  | cons e l ih =>
    intro s s' h
    obtain ⟨s1, h1, h2⟩ := Option.bind_eq_some_iff.1 h
    exact exec_cons h1 (ih h2)

/-- the file `a`, changed at the time `m` -/
def oneFile (m : Nat) : FS Nat := fun p => if p = "a" then some ⟨m, some 0⟩ else none

/-- **C156 is violated**: the file is removed between the two system calls of `fileinfo`, and `get_info` raises `FileNotFoundError`. -/
theorem C156_violated : ∃ s, (CSt.new (oneFile 1)).Exec [.query 0 "a", .run 0, .run 0, .change (fun _ => none), .run 0] s ∧
    s.pc 0 = .raised "a" :=
  ⟨_, exec_of_runs _ rfl, by decide⟩

/-- the first thread has looked at the file when it is changed -/
def overlapA : List (CEv Nat) := [.refresh 0 "a", .run 0, .run 0, .change (oneFile 2)]
/-- the second one refreshes it, and then the first one goes on -/
def overlapB : List (CEv Nat) := [.run 1, .run 1, .run 1, .run 0, .query 2 "a"]

/-- **C156 is violated** if refreshes of the same file overlap: the file is changed, then a thread calls `update_info`, which returns; and
then `get_info` returns the status of the file before the change, which another thread had found and stored only then. -/
theorem C156_violated_overlap : ∃ s0 s1 s3, (CSt.new (oneFile 1)).Exec overlapA s0 ∧ s0.step (.refresh 1 "a") = some s1 ∧
    s1.Exec overlapB s3 ∧ s3.pc 1 = .idle ∧ s3.Answers 2 "a" ⟨true, 1⟩ ∧
    ∀ t, overlapA.length ≤ t → t ≤ (overlapA ++ .refresh 1 "a" :: overlapB).length →
      fileinfo (fsAt (oneFile 1) (overlapA ++ .refresh 1 "a" :: overlapB) t) "a" = ⟨true, 2⟩ := by
  refine ⟨_, _, _, exec_of_runs _ rfl, rfl, exec_of_runs _ rfl, rfl, ⟨Or.inl rfl, rfl⟩, ?_⟩
  intro t h1 h2
  have : 4 ≤ t ∧ t ≤ 10 := ⟨h1, h2⟩
  have : t = 4 ∨ t = 5 ∨ t = 6 ∨ t = 7 ∨ t = 8 ∨ t = 9 ∨ t = 10 := by omega
  rcases this with rfl | rfl | rfl | rfl | rfl | rfl | rfl <;> rfl

/-- The hypotheses of `C156_partial` can be met: a thread has asked for the file, it is changed, another thread refreshes it while
the first one asks again, and a third one gets the new status. -/
example : ∃ s0 s1 s3 s4, (CSt.new (oneFile 1)).Exec [.query 0 "a", .run 0, .run 0, .run 0, .run 0, .run 0, .change (oneFile 2)] s0 ∧
    (∀ j, ¬ (s0.pc j).Updates "a") ∧ s0.step (.refresh 1 "a") = some s1 ∧
    s1.Exec [.run 1, .query 0 "a", .run 1, .run 0, .run 1] s3 ∧ s3.pc 1 = .idle ∧ s3.Exec [.query 2 "a"] s4 ∧
    s4.Answers 2 "a" ⟨true, 2⟩ := by
  refine ⟨_, _, _, _, exec_of_runs _ rfl, ?_, rfl, exec_of_runs _ rfl, rfl, exec_of_runs _ rfl, ⟨Or.inl rfl, rfl⟩⟩
  intro j h
  by_cases hj : j = 0
  · subst hj; exact h
  · simp [CSt.goto, CSt.new, hj, Pc.Updates] at h

end Licant.Make.Racing
