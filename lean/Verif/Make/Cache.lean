/-
The file cache and the staleness test: C31, C32.
-/
import Verif.Make.Spec
import Verif.Core.Need

set_option autoImplicit false

namespace Licant.Make
open Licant.Py Licant.Core Relation

variable {α : Type} {P : Proj α} {canon : String → String} {fs : FS α}

theorem getInfo_fst (cache : FileCache) (p : String) : (getInfo fs cache p).1 = view fs cache p := by
  unfold getInfo view
  cases cache.get p <;> rfl

theorem view_getInfo (cache : FileCache) (p : String) :
    view fs (getInfo fs cache p).2 = view fs cache := by
  funext q
  unfold getInfo
  cases h : cache.get p with
  | some i => rfl
  | none =>
    simp only [view, updateInfo, Dict.get_set]
    split
    · rename_i e; subst e; simp [h]
    · rfl

theorem view_updateInfo (fs' : FS α) (cache : FileCache) (p q : String) :
    view fs' (updateInfo fs cache p) q = if p = q then fileinfo fs p else view fs' cache q := by
  simp only [view, updateInfo, Dict.get_set]
  split <;> rfl

theorem view_nil (p : String) : view fs [] p = fileinfo fs p := rfl

/-! ### C31 -/

/-- Histories of the file cache: changes of the file system, `get_info`, `update_info`. -/
inductive COp (α : Type) where
  | change (fs : FS α)
  | query (p : String)
  | refresh (p : String)

/-- the file system after a history -/
def fsAfter (fs : FS α) : List (COp α) → FS α
  | [] => fs
  | .change fs' :: ops => fsAfter fs' ops
  | _ :: ops => fsAfter fs ops

/-- the cache after a history -/
def cacheAfter (fs : FS α) (cache : FileCache) : List (COp α) → FileCache
  | [] => cache
  | .change fs' :: ops => cacheAfter fs' cache ops
  | .query p :: ops => cacheAfter fs (getInfo fs cache p).2 ops
  | .refresh p :: ops => cacheAfter fs (updateInfo fs cache p) ops

theorem fsAfter_append (a b : List (COp α)) : ∀ fs : FS α, fsAfter fs (a ++ b) = fsAfter (fsAfter fs a) b := by
  induction a with
  | nil => intro fs; rfl
  | cons op a ih => intro fs; cases op <;> exact ih _

theorem cacheAfter_append (a b : List (COp α)) : ∀ (fs : FS α) (c : FileCache),
    cacheAfter fs c (a ++ b) = cacheAfter (fsAfter fs a) (cacheAfter fs c a) b := by
  induction a with
  | nil => intro fs c; rfl
  | cons op a ih => intro fs c; cases op <;> exact ih _ _

theorem cacheAfter_get_some (p : String) (i : Info) (ops : List (COp α)) :
    ∀ (fs : FS α) (c : FileCache), (∀ op ∈ ops, op ≠ .refresh p) → c.get p = some i →
      (cacheAfter fs c ops).get p = some i := by
  induction ops with
  | nil => intro fs c _ h; exact h
  | cons op ops ih =>
    intro fs c hno h
    have hno' : ∀ op ∈ ops, op ≠ .refresh p := fun x hx => hno x (by simp [hx])
    cases op with
    | change fs' => exact ih _ _ hno' h
    | query q =>
      refine ih _ _ hno' ?_
      unfold getInfo
      cases hq : c.get q with
      | some j => exact h
      | none =>
        simp only [updateInfo, Dict.get_set]
        split
        · rename_i e; subst e; rw [hq] at h; cases h
        · exact h
    | refresh q =>
      refine ih _ _ hno' ?_
      simp only [updateInfo, Dict.get_set]
      split
      · rename_i e; subst e; exact absurd rfl (hno (.refresh q) (by simp))
      · exact h

theorem cacheAfter_get_none (p : String) (ops : List (COp α)) :
    ∀ (fs : FS α) (c : FileCache), (∀ op ∈ ops, op ≠ .refresh p ∧ op ≠ .query p) → c.get p = none →
      (cacheAfter fs c ops).get p = none := by
  induction ops with
  | nil => intro fs c _ h; exact h
  | cons op ops ih =>
    intro fs c hno h
    have hno' : ∀ op ∈ ops, op ≠ .refresh p ∧ op ≠ .query p := fun x hx => hno x (by simp [hx])
    cases op with
    | change fs' => exact ih _ _ hno' h
    | query q =>
      refine ih _ _ hno' ?_
      unfold getInfo
      cases hq : c.get q with
      | some j => exact h
      | none =>
        simp only [updateInfo, Dict.get_set]
        split
        · rename_i e; subst e; exact absurd rfl (hno (.query q) (by simp)).2
        · exact h
    | refresh q =>
      refine ih _ _ hno' ?_
      simp only [updateInfo, Dict.get_set]
      split
      · rename_i e; subst e; exact absurd rfl (hno (.refresh q) (by simp)).1
      · exact h

/-- C31: what `get_info(p)` answers after an arbitrary history of a new process.
1. `p` was refreshed: the status of `p` at the last refresh.
2. never refreshed, but queried before: the status at the first query.
3. neither: the present status. -/
theorem C31_file_cache (fs : FS α) (ops : List (COp α)) (p : String) :
    let answer := (getInfo (fsAfter fs ops) (cacheAfter fs [] ops) p).1
    (∀ pre post, ops = pre ++ .refresh p :: post → (∀ op ∈ post, op ≠ .refresh p) →
      answer = fileinfo (fsAfter fs pre) p) ∧
    (∀ pre post, ops = pre ++ .query p :: post → (∀ op ∈ ops, op ≠ .refresh p) →
      (∀ op ∈ pre, op ≠ .query p) → answer = fileinfo (fsAfter fs pre) p) ∧
    ((∀ op ∈ ops, op ≠ .refresh p ∧ op ≠ .query p) → answer = fileinfo (fsAfter fs ops) p) := by
  intro answer
  have hans : answer = view (fsAfter fs ops) (cacheAfter fs [] ops) p := getInfo_fst _ _
  refine ⟨?_, ?_, ?_⟩
  · rintro pre post rfl hno
    rw [hans, view, cacheAfter_append, cacheAfter, cacheAfter_get_some p _ post _ _ hno]
    · rfl
    · exact Dict.get_set_self _ _ _
  · rintro pre post rfl hno hpre
    have h1 : (cacheAfter fs [] pre).get p = none :=
      cacheAfter_get_none p pre fs [] (fun op hop => ⟨hno op (by simp [hop]), hpre op hop⟩) rfl
    rw [hans, view, cacheAfter_append, cacheAfter, cacheAfter_get_some p _ post _ _
      (fun op hop => hno op (by simp [hop]))]
    · rfl
    · unfold getInfo; rw [h1]; exact Dict.get_set_self _ _ _
  · intro hno
    rw [hans, view, cacheAfter_get_none p ops fs [] hno rfl]; rfl

/-- Non-vacuity: a query, then a change, then a query, then a refresh. -/
example : ∃ (fs0 fs1 : FS Nat) (ops : List (COp Nat)),
    ops = [.query "a"] ++ .change fs1 :: [.query "b"] ∧
    (getInfo (fsAfter fs0 ops) (cacheAfter fs0 [] ops) "a").1 = ⟨true, 3⟩ ∧
    (getInfo (fsAfter fs0 (ops ++ [.refresh "a"])) (cacheAfter fs0 [] (ops ++ [.refresh "a"])) "a").1 =
      ⟨true, 5⟩ :=
  ⟨fun _ => some ⟨3, some 0⟩, fun _ => some ⟨5, some 0⟩, _, rfl, rfl, rfl⟩

/-! ### C32 -/

/-- the files whose time stamps count for `mtime` of `o` -/
def Counts (P : Proj α) (canon : String → String) (o o' : Nat) : Prop :=
  match P.kind o with
  | .file | .source => o' = o
  | .fileset => InputOf P canon o o'
  | _ => False

theorem inputOf_iff {o o' : Nat} :
    InputOf P canon o o' ↔ ∃ d, ObjDep canon P.reg o d ∧ Counts P canon d o' := by
  constructor
  · intro h
    cases h with
    | direct hd hk =>
      refine ⟨o', hd, ?_⟩
      unfold Counts
      rcases hk with hk | hk <;> rw [hk]
    | through hd hk hi =>
      refine ⟨_, hd, ?_⟩
      unfold Counts
      rw [hk]; exact hi
  · rintro ⟨d, hd, hc⟩
    unfold Counts at hc
    split at hc
    · subst hc; rename_i hk; exact .direct hd (Or.inl hk)
    · subst hc; rename_i hk; exact .direct hd (Or.inr hk)
    · rename_i hk; exact .through hd hk hc
    · cases hc

theorem foldlM_max {δ : Type} (F : Nat × FileCache → δ → Except Err (Nat × FileCache))
    (V : String → Info) (R : δ → Nat → Prop)
    (l : List δ)
    (hF : ∀ p d q, d ∈ l → F p d = .ok q → view fs p.2 = V →
      view fs q.2 = V ∧ ∀ x, x < q.1 ↔ x < p.1 ∨ R d x) :
    ∀ p q, l.foldlM F p = .ok q → view fs p.2 = V →
      view fs q.2 = V ∧ ∀ x, x < q.1 ↔ x < p.1 ∨ ∃ d ∈ l, R d x := by
  induction l with
  | nil =>
    intro p q h hv
    cases h
    exact ⟨hv, by simp⟩
  | cons d l ih =>
    intro p q h hv
    simp only [List.foldlM_cons, bind, Except.bind] at h
    split at h
    · cases h
    · rename_i r hr
      obtain ⟨h1, h2⟩ := hF p d r (by simp) hr hv
      obtain ⟨h3, h4⟩ := ih (fun p d' q hd' => hF p d' q (by simp [hd'])) r q h h1
      refine ⟨h3, fun x => ?_⟩
      rw [h4, h2, or_assoc]
      simp

theorem mtime_ok (fuel : Nat) : ∀ (o : Nat) (cache cache' : FileCache) (t : Nat),
    mtime P canon fs fuel o cache = .ok (t, cache') →
    view fs cache' = view fs cache ∧
    ∀ x, x < t ↔ ∃ o', Counts P canon o o' ∧ x < (view fs cache (P.path o')).mtime := by
  induction fuel with
  | zero => intro o cache cache' t h; simp [mtime] at h
  | succ fuel ih =>
    intro o cache cache' t h
    unfold mtime at h
    unfold Counts
    split at h
    · rename_i hk
      cases h
      rw [hk, getInfo_fst]
      exact ⟨view_getInfo _ _, by simp⟩
    · rename_i hk
      cases h
      rw [hk, getInfo_fst]
      exact ⟨view_getInfo _ _, by simp⟩
    · rename_i hk
      cases h
      rw [hk]
      exact ⟨rfl, by simp⟩
    · rename_i hk
      rw [hk]
      obtain ⟨h1, h2⟩ := foldlM_max (fs := fs) _ (view fs cache)
        (fun d x => ∃ o1, Resolves canon P.reg d o1 ∧ ∃ o', Counts P canon o1 o' ∧
          x < (view fs cache (P.path o')).mtime) _ (by
          intro p d q _ hq hv
          simp only [bind, Except.bind] at hq
          split at hq
          · cases hq
          · rename_i o1 ho1
            split at hq
            · cases hq
            · rename_i r hr
              cases hq
              obtain ⟨h1, h2⟩ := ih o1 p.2 r.2 r.1 hr
              refine ⟨h1.trans hv, fun x => ?_⟩
              rw [hv] at h2
              have hres := get_ok.1 ho1
              have : (∃ o1, Resolves canon P.reg d o1 ∧ ∃ o', Counts P canon o1 o' ∧
                  x < (view fs cache (P.path o')).mtime) ↔ x < r.1 := by
                rw [h2]
                constructor
                · rintro ⟨o2, h3, h4⟩; rw [hres.unique h3]; exact h4
                · intro h3; exact ⟨o1, hres, h3⟩
              rw [this]
              simp only
              split <;> omega) _ _ h rfl
      refine ⟨h1, fun x => ?_⟩
      rw [h2]
      simp only [Nat.not_lt_zero, false_or]
      constructor
      · rintro ⟨d, hd, o1, hr, o', hc, hx⟩
        exact ⟨o', inputOf_iff.2 ⟨o1, ⟨d, hd, hr⟩, hc⟩, hx⟩
      · rintro ⟨o', hi, hx⟩
        obtain ⟨o1, ⟨d, hd, hr⟩, hc⟩ := inputOf_iff.1 hi
        exact ⟨d, hd, o1, hr, o', hc, hx⟩
    · cases h

theorem maxDepTime_ok {lim : Nat} {l : List Nat} {cache : FileCache} {r : Nat × FileCache}
    (h : maxDepTime P canon fs lim l cache = .ok r) :
    view fs r.2 = view fs cache ∧
    ∀ x, x < r.1 ↔ ∃ d ∈ l, ∃ o', Counts P canon d o' ∧ x < (view fs cache (P.path o')).mtime := by
  unfold maxDepTime at h
  obtain ⟨h1, h2⟩ := foldlM_max (fs := fs) _ (view fs cache)
    (fun d x => ∃ o', Counts P canon d o' ∧ x < (view fs cache (P.path o')).mtime) _ (by
      intro p d q _ hq hv
      simp only [bind, Except.bind] at hq
      split at hq
      · cases hq
      · rename_i r hr
        cases hq
        obtain ⟨h1, h2⟩ := mtime_ok lim d p.2 r.2 r.1 hr
        refine ⟨h1.trans hv, fun x => ?_⟩
        rw [hv] at h2
        rw [← h2]
        have hf : isFile P d = true := by
          unfold isFile
          cases hk : P.kind d <;> try rfl
          cases lim with
          | zero => simp [mtime] at hr
          | succ lim => simp [mtime, hk] at hr
        simp only [hf, Bool.true_and, gt_iff_lt, decide_eq_true_eq]
        split <;> omega) _ _ h rfl
  refine ⟨h1, fun x => ?_⟩
  rw [h2]
  simp

/-- C32: when `update_if` of a file target answers, it answers `True` exactly if the target is
forced, does not exist, or some file it depends on (file sets count with all their members) has a
strictly larger time stamp.  Directories: exactly if it does not exist.  File sets: never. -/
theorem C32_staleness (lim o : Nat) (cache cache' : FileCache) (b : Bool)
    (h : internalUpdateIf P canon fs lim o cache = .ok (b, cache')) :
    (P.kind o = .file ∨ P.kind o = .source → (b = true ↔ P.force o = true ∨
      (view fs cache (P.path o)).exist = false ∨
      ∃ o', InputOf P canon o o' ∧
        (view fs cache (P.path o')).mtime > (view fs cache (P.path o)).mtime)) ∧
    (P.kind o = .dir → (b = true ↔ (view fs cache (P.path o)).exist = false)) ∧
    (P.kind o = .fileset → b = false) ∧
    view fs cache' = view fs cache := by
  have key : ∀ (hk : P.kind o = .file ∨ P.kind o = .source),
      (b = true ↔ P.force o = true ∨
      (view fs cache (P.path o)).exist = false ∨
      ∃ o', InputOf P canon o o' ∧
        (view fs cache (P.path o')).mtime > (view fs cache (P.path o)).mtime) ∧
      view fs cache' = view fs cache := by
    intro hk
    have h' : (if P.force o then .ok (true, cache)
      else
        let e := getInfo fs cache (P.path o)
        if e.1.exist = false then .ok (true, e.2)
        else do
          let l ← (P.reg.obj o).deps.mapM (Core.get canon P.reg)
          let m ← maxDepTime P canon fs lim l e.2
          let i := getInfo fs m.2 (P.path o)
          .ok (decide (m.1 > i.1.mtime), i.2)) = (Except.ok (b, cache') : Except Err (Bool × FileCache)) := by
      rw [← h]; unfold internalUpdateIf
      rcases hk with hk | hk <;> rw [hk]
    split at h'
    · rename_i hf
      cases h'; simp [hf]
    · rename_i hf
      simp only at h'
      rw [getInfo_fst] at h'
      split at h'
      · rename_i he
        cases h'
        exact ⟨by simp only [he, true_or, or_true], view_getInfo _ _⟩
      · rename_i he
        simp only [bind, Except.bind] at h'
        split at h'
        · cases h'
        · rename_i l hl
          split at h'
          · cases h'
          · rename_i m hm
            cases h'
            obtain ⟨h1, h2⟩ := maxDepTime_ok hm
            rw [view_getInfo] at h1 h2
            have hmem := mem_deplist (mapM_get.1 hl)
            refine ⟨?_, by rw [view_getInfo, h1]⟩
            rw [getInfo_fst, h1]
            have he' : (view fs cache (P.path o)).exist = true := by simpa using he
            simp only [hf, he', decide_eq_true_eq, gt_iff_lt, h2, false_or, Bool.false_eq_true,
              Bool.true_eq_false]
            constructor
            · rintro ⟨d, hd, o', hc, hx⟩
              exact ⟨o', inputOf_iff.2 ⟨d, (hmem d).1 hd, hc⟩, hx⟩
            · rintro ⟨o', hi, hx⟩
              obtain ⟨d, hd, hc⟩ := inputOf_iff.1 hi
              exact ⟨d, (hmem d).2 hd, o', hc, hx⟩
  refine ⟨fun hk => (key hk).1, ?_, ?_, ?_⟩
  · intro hk
    simp only [internalUpdateIf, hk] at h
    cases h
    rw [getInfo_fst]; simp
  · intro hk
    simp only [internalUpdateIf, hk] at h
    cases h; rfl
  · cases hk : P.kind o with
    | file => exact (key (Or.inl hk)).2
    | source => exact (key (Or.inr hk)).2
    | dir =>
      simp only [internalUpdateIf, hk] at h
      cases h
      exact view_getInfo _ _
    | fileset =>
      simp only [internalUpdateIf, hk] at h
      cases h; rfl
    | other =>
      simp only [internalUpdateIf, hk, bind, Except.bind] at h
      split at h
      · cases h
      · cases h; rfl

theorem mtime_total (hfr : FullyRegistered canon P.reg)
    (hfs : ∀ a b, P.kind a = .fileset → ObjDep canon P.reg a b → P.kind b ≠ .other) (fuel : Nat) :
    ∀ (o : Nat) (cache : FileCache), Registered P.reg o → P.kind o ≠ .other →
    (∀ l : List Nat, (o :: l).IsChain (ObjDep canon P.reg) → (o :: l).length ≤ fuel) →
    ∃ r, mtime P canon fs fuel o cache = .ok r := by
  induction fuel with
  | zero => intro o cache _ _ h; have := h [] (by simp); simp at this
  | succ fuel ih =>
    intro o cache hreg hk hl
    unfold mtime
    cases hk' : P.kind o with
    | file => exact ⟨_, rfl⟩
    | source => exact ⟨_, rfl⟩
    | dir => exact ⟨_, rfl⟩
    | other => exact absurd hk' hk
    | fileset =>
      simp only
      have : ∀ (ds : List String) (p : Nat × FileCache), (∀ d ∈ ds, d ∈ (P.reg.obj o).deps) →
          ∃ r, ds.foldlM (fun (p : Nat × FileCache) d => do
            let dtgt ← Core.get canon P.reg d
            let r ← mtime P canon fs fuel dtgt p.2
            .ok (if r.1 > p.1 then r.1 else p.1, r.2)) p = (.ok r : Except Err _) := by
        intro ds
        induction ds with
        | nil => intro p _; exact ⟨p, rfl⟩
        | cons d ds ihd =>
          intro p hd
          obtain ⟨o1, ho1⟩ := hfr o hreg d (hd d (by simp))
          have hdep : ObjDep canon P.reg o o1 := ⟨d, hd d (by simp), ho1⟩
          obtain ⟨r, hr⟩ := ih o1 p.2 ho1.registered (hfs o o1 hk' hdep)
            (chain_bound_pred hl hdep)
          simp only [List.foldlM_cons, bind, Except.bind, get_ok.2 ho1, hr]
          exact ihd _ (fun x hx => hd x (by simp [hx]))
      exact this _ _ (fun _ h => h)

/-- C32, totality: in a fully registered acyclic project in which files and file sets depend on
make targets only, the staleness test of every make target answers. -/
theorem C32_answers (hS : Sound P canon) (hfr : FullyRegistered canon P.reg) (lim o : Nat)
    (hlim : P.reg.targets.length ≤ lim) (ho : Registered P.reg o) (hk : P.kind o ≠ .other)
    (cache : FileCache) : ∃ r, internalUpdateIf P canon fs lim o cache = .ok r := by
  have hdb := depthBound_of_acyclic hS.acyclic hlim
  have hfs : ∀ a b, P.kind a = .fileset → ObjDep canon P.reg a b → P.kind b ≠ .other :=
    fun a b ha hab => hS.fileDeps a b (Or.inr ha) hab
  have hdk : P.kind o = .file ∨ P.kind o = .source → ∀ o', ObjDep canon P.reg o o' → P.kind o' ≠ .other := by
    intro h o' hd
    rcases h with h | h
    · exact hS.fileDeps o o' (Or.inl h) hd
    · rw [hS.srcDeps o o' (Or.inl h) hd]; simp
  have hreg : ∀ l : List Nat, ∀ x, Registered P.reg x → (x :: l).IsChain (ObjDep canon P.reg) →
      ∀ y ∈ x :: l, Registered P.reg y := by
    intro l
    induction l with
    | nil => intro x hx _ y hy; simp at hy; subst hy; exact hx
    | cons z l ih =>
      intro x hx hc y hy
      rw [List.isChain_cons_cons] at hc
      rcases List.mem_cons.1 hy with rfl | hy
      · exact hx
      · exact ih z hc.1.registered hc.2 y hy
  have key : P.kind o = .file ∨ P.kind o = .source → ∃ r, internalUpdateIf P canon fs lim o cache = .ok r := by
    intro hk
    have hloop : ∀ (l : List Nat) (p : Nat × FileCache), (∀ x ∈ l, ObjDep canon P.reg o x) →
        ∃ r, l.foldlM (fun (p : Nat × FileCache) dep => do
          let r ← mtime P canon fs lim dep p.2
          .ok (if isFile P dep && r.1 > p.1 then r.1 else p.1, r.2)) p = (.ok r : Except Err _) := by
      intro l
      induction l with
      | nil => intro p _; exact ⟨p, rfl⟩
      | cons d l ih =>
        intro p hd
        have hdep := hd d (by simp)
        obtain ⟨r, hr⟩ := mtime_total (fs := fs) hfr hfs lim d p.2 hdep.registered (hdk hk d hdep)
          (fun l hl => hdb _ (hreg l d hdep.registered hl) hl)
        simp only [List.foldlM_cons, bind, Except.bind, hr]
        exact ih _ (fun x hx => hd x (by simp [hx]))
    obtain ⟨⟨l, ca⟩, hl⟩ := getDeplist_total (cached := fun _ => none) (hfr o ho)
    have hl' : (P.reg.obj o).deps.mapM (Core.get canon P.reg) = .ok l := by
      simp only [getDeplist, bind, Except.bind] at hl
      split at hl
      · cases hl
      · rename_i l' hl'; cases hl; exact hl'
    have hmem := mem_deplist (mapM_get.1 hl')
    have : ∃ r, (if P.force o then .ok (true, cache)
      else
        let e := getInfo fs cache (P.path o)
        if e.1.exist = false then .ok (true, e.2)
        else do
          let l ← (P.reg.obj o).deps.mapM (Core.get canon P.reg)
          let m ← maxDepTime P canon fs lim l e.2
          let i := getInfo fs m.2 (P.path o)
          .ok (decide (m.1 > i.1.mtime), i.2)) = (Except.ok r : Except Err (Bool × FileCache)) := by
      split
      · exact ⟨_, rfl⟩
      · simp only
        split
        · exact ⟨_, rfl⟩
        · obtain ⟨r, hr⟩ := hloop l (0, (getInfo fs cache (P.path o)).2) (fun x hx => (hmem x).1 hx)
          simp only [bind, Except.bind, hl', maxDepTime] at hr ⊢
          rw [hr]; exact ⟨_, rfl⟩
    obtain ⟨r, hr⟩ := this
    refine ⟨r, ?_⟩
    rw [← hr]; unfold internalUpdateIf
    rcases hk with hk | hk <;> rw [hk]
  cases hk' : P.kind o with
  | file => exact key (Or.inl hk')
  | source => exact key (Or.inr hk')
  | dir => simp only [internalUpdateIf, hk']; exact ⟨_, rfl⟩
  | fileset => simp only [internalUpdateIf, hk']; exact ⟨_, rfl⟩
  | other => exact absurd hk' hk

/-! ### the answers depend only on what the program believes -/

/-- same answer, same beliefs afterwards -/
def Sim {β : Type} (fs : FS α) (V : String → Info) :
    Except Err (β × FileCache) → Except Err (β × FileCache) → Prop
  | .ok a, .ok b => a.1 = b.1 ∧ view fs a.2 = V ∧ view fs b.2 = V
  | .error e, .error e' => e = e'
  | _, _ => False

theorem sim_foldlM {δ : Type} (F : Nat × FileCache → δ → Except Err (Nat × FileCache))
    (V : String → Info)
    (hF : ∀ t c1 c2 d, view fs c1 = V → view fs c2 = V → Sim fs V (F (t, c1) d) (F (t, c2) d))
    (l : List δ) : ∀ t c1 c2, view fs c1 = V → view fs c2 = V →
      Sim fs V (l.foldlM F (t, c1)) (l.foldlM F (t, c2)) := by
  induction l with
  | nil => intro t c1 c2 h1 h2; exact ⟨rfl, h1, h2⟩
  | cons d l ih =>
    intro t c1 c2 h1 h2
    have := hF t c1 c2 d h1 h2
    simp only [List.foldlM_cons, bind, Except.bind]
    cases e1 : F (t, c1) d with
    | error a =>
      rw [e1] at this
      cases e2 : F (t, c2) d with
      | error b => rw [e2] at this; exact this
      | ok b => rw [e2] at this; exact this.elim
    | ok a =>
      rw [e1] at this
      cases e2 : F (t, c2) d with
      | error b => rw [e2] at this; exact this.elim
      | ok b =>
        rw [e2] at this
        obtain ⟨h3, h4, h5⟩ := this
        obtain ⟨a1, a2⟩ := a
        obtain ⟨b1, b2⟩ := b
        simp only at h3; subst h3
        exact ih _ _ _ h4 h5

theorem mtime_sim (V : String → Info) (fuel : Nat) : ∀ o c1 c2, view fs c1 = V → view fs c2 = V →
    Sim fs V (mtime P canon fs fuel o c1) (mtime P canon fs fuel o c2) := by
  induction fuel with
  | zero => intro o c1 c2 _ _; exact rfl
  | succ fuel ih =>
    intro o c1 c2 h1 h2
    unfold mtime
    cases P.kind o with
    | file =>
      refine ⟨?_, ?_, ?_⟩
      · simp only [getInfo_fst, h1, h2]
      · simp only [view_getInfo, h1]
      · simp only [view_getInfo, h2]
    | source =>
      refine ⟨?_, ?_, ?_⟩
      · simp only [getInfo_fst, h1, h2]
      · simp only [view_getInfo, h1]
      · simp only [view_getInfo, h2]
    | dir => exact ⟨rfl, h1, h2⟩
    | other => exact rfl
    | fileset =>
      refine sim_foldlM _ V ?_ _ 0 c1 c2 h1 h2
      intro t c1 c2 d h1 h2
      simp only [bind, Except.bind]
      cases Core.get canon P.reg d with
      | error e => exact rfl
      | ok o' =>
        simp only
        have := ih o' c1 c2 h1 h2
        cases e1 : mtime P canon fs fuel o' c1 with
        | error a =>
          rw [e1] at this
          cases e2 : mtime P canon fs fuel o' c2 with
          | error b => rw [e2] at this; exact this
          | ok b => rw [e2] at this; exact this.elim
        | ok a =>
          rw [e1] at this
          cases e2 : mtime P canon fs fuel o' c2 with
          | error b => rw [e2] at this; exact this.elim
          | ok b =>
            rw [e2] at this
            exact ⟨by simp only [this.1], this.2.1, this.2.2⟩

/-- The answer of `update_if`, including its failure, depends on the file cache only through what
it says about each path, and the call leaves that unchanged.  So during an evaluation every call
answers as if it were the first. -/
theorem internalUpdateIf_cache (lim o : Nat) (c1 c2 : FileCache) (h : view fs c1 = view fs c2) :
    Sim fs (view fs c2) (internalUpdateIf P canon fs lim o c1) (internalUpdateIf P canon fs lim o c2) := by
  have key : Sim fs (view fs c2)
      (if P.force o then .ok (true, c1)
      else
        let e := getInfo fs c1 (P.path o)
        if e.1.exist = false then .ok (true, e.2)
        else do
          let l ← (P.reg.obj o).deps.mapM (Core.get canon P.reg)
          let m ← maxDepTime P canon fs lim l e.2
          let i := getInfo fs m.2 (P.path o)
          .ok (decide (m.1 > i.1.mtime), i.2))
      (if P.force o then .ok (true, c2)
      else
        let e := getInfo fs c2 (P.path o)
        if e.1.exist = false then .ok (true, e.2)
        else do
          let l ← (P.reg.obj o).deps.mapM (Core.get canon P.reg)
          let m ← maxDepTime P canon fs lim l e.2
          let i := getInfo fs m.2 (P.path o)
          .ok (decide (m.1 > i.1.mtime), i.2)) := by
    split
    · exact ⟨rfl, h, rfl⟩
    · simp only [getInfo_fst, h]
      split
      · exact ⟨rfl, by rw [view_getInfo, h], by rw [view_getInfo]⟩
      · simp only [bind, Except.bind]
        cases (P.reg.obj o).deps.mapM (Core.get canon P.reg) with
        | error e => exact rfl
        | ok l =>
          simp only
          have : Sim fs (view fs c2) (maxDepTime P canon fs lim l (getInfo fs c1 (P.path o)).2)
            (maxDepTime P canon fs lim l (getInfo fs c2 (P.path o)).2) := sim_foldlM (fs := fs) (fun (p : Nat × FileCache) dep => do
              let r ← mtime P canon fs lim dep p.2
              .ok (if isFile P dep && r.1 > p.1 then r.1 else p.1, r.2)) (view fs c2) (by
            intro t c1 c2' d h1 h2
            simp only [bind, Except.bind]
            have := mtime_sim (P := P) (canon := canon) (fs := fs) (view fs c2) lim d c1 c2' h1 h2
            cases e1 : mtime P canon fs lim d c1 with
            | error a =>
              rw [e1] at this
              cases e2 : mtime P canon fs lim d c2' with
              | error b => rw [e2] at this; exact this
              | ok b => rw [e2] at this; exact this.elim
            | ok a =>
              rw [e1] at this
              cases e2 : mtime P canon fs lim d c2' with
              | error b => rw [e2] at this; exact this.elim
              | ok b =>
                rw [e2] at this
                exact ⟨by simp only [this.1], this.2.1, this.2.2⟩) l 0
            (getInfo fs c1 (P.path o)).2 (getInfo fs c2 (P.path o)).2
            (by rw [view_getInfo, h]) (by rw [view_getInfo])
          revert this
          generalize maxDepTime P canon fs lim l (getInfo fs c1 (P.path o)).2 = x1
          generalize maxDepTime P canon fs lim l (getInfo fs c2 (P.path o)).2 = x2
          intro this
          cases x1 with
          | error a =>
            cases x2 with
            | error b => exact this
            | ok b => exact this.elim
          | ok a =>
            cases x2 with
            | error b => exact this.elim
            | ok b =>
              obtain ⟨h3, h4, h5⟩ := this
              refine ⟨?_, ?_, ?_⟩
              · simp only [h4, h5, h3]
              · simp only [view_getInfo, h4]
              · simp only [view_getInfo, h5]
  unfold internalUpdateIf
  cases P.kind o with
  | file => exact key
  | source => exact key
  | dir => exact ⟨by simp only [getInfo_fst, h], by rw [view_getInfo, h], view_getInfo _ _⟩
  | fileset => exact ⟨rfl, h, rfl⟩
  | other =>
    simp only [bind, Except.bind]
    cases P.upd o with
    | error e => exact rfl
    | ok b => exact ⟨rfl, h, rfl⟩

theorem updIf_congr {lim o : Nat} {c1 c2 : FileCache} (h : view fs c1 = view fs c2) :
    updIf P canon fs c1 lim o = updIf P canon fs c2 lim o := by
  have := internalUpdateIf_cache (P := P) (canon := canon) (fs := fs) lim o c1 c2 h
  unfold updIf
  cases e1 : internalUpdateIf P canon fs lim o c1 with
  | error a =>
    rw [e1] at this
    cases e2 : internalUpdateIf P canon fs lim o c2 with
    | error b => rw [e2] at this; cases this; rfl
    | ok b => rw [e2] at this; exact this.elim
  | ok a =>
    rw [e1] at this
    cases e2 : internalUpdateIf P canon fs lim o c2 with
    | error b => rw [e2] at this; exact this.elim
    | ok b => rw [e2] at this; simp only [Except.map, this.1]

end Licant.Make
