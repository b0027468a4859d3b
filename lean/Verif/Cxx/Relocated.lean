/-
C++ projects with relative names in another place: C152.
-/
import Verif.Cxx.Both
import Verif.Make.Relocated

set_option autoImplicit false

namespace Licant.Cxx
open Licant.Py Licant.Core Licant.Make Relation
open Licant.Modules (Val Opts Toolchain Lib IsModule)

variable {σ : String → String} {G : String → Prop} {S S' : Site} {L L' L1 L1' : LReg}

/-! ### specification -/

/-- `L'` is `L` with names replaced -/
def LCopied (σ : String → String) (G : String → Prop) (L L' : LReg) : Prop :=
  Copied σ G L.m L'.m ∧ ∀ o, L'.force o = L.force o

/-- the names that the registration of a module uses: its files, what is read from dependency files, and the name of the set of
local headers -/
def Parts.names (S : Site) (M : Parts) (lh : String) : List String :=
  [lh] ++ M.depends ++ M.raw ++ M.made ++ M.us.flatMap (CUnit.ins S) ++ M.extra

/-! ### proofs -/

/-- the names in a registration -/
def Reg.names : Reg → List String
  | .src p => [p]
  | .file p deps _ _ => p :: deps
  | .set n ts => n :: ts

theorem map_fixed {l : List String} (h : ∀ n ∈ l, σ n = n) : l.map σ = l := by
  rw [List.map_congr_left (g := id) h, List.map_id]

theorem Reg.run_ren (hR : Renames σ G S.env S'.env) (hlim : S'.lim = S.lim) {r : Reg} (hn : ∀ n ∈ r.names, G n ∧ σ n = n)
    (hL : LCopied σ G L L') (h : r.run S L = .ok L1) (h' : r.run S' L' = .ok L1') : LCopied σ G L1 L1' := by
  cases r with
  | src p =>
    obtain ⟨g, e⟩ := hn p (by simp [Reg.names])
    have hs := sourceG_ren hR (lim := S.lim) hL.1 g
    rw [e] at hs
    simp only [Reg.run, addSource, hlim, bind, Except.bind] at h h'
    clear hn
    revert h'
    revert h
    revert hs
    rcases sourceG S.env S.lim L.m p [] with e1 | c1 <;> rcases sourceG S'.env S.lim L'.m p [] with e2 | c2
    · intro _ h; cases h
    · intro _ h; cases h
    · intro _ _ h; cases h
    · intro hs h h'
      cases h
      cases h'
      exact ⟨hs, hL.2⟩
  | file p deps f cmd =>
    obtain ⟨g, e⟩ := hn p (by simp [Reg.names])
    have hd : ∀ d ∈ deps, G d ∧ σ d = d := fun d hd => hn d (by simp [Reg.names, hd])
    have hs := fileInit_ren hR S.lim L.m L'.m p deps true hL.1 g fun d h => (hd d h).1
    rw [e, map_fixed fun d h => (hd d h).2] at hs
    simp only [Reg.run, addFile, hlim, bind, Except.bind] at h h'
    clear hn
    revert h'
    revert h
    revert hs
    rcases cmd (S.env.canon p) with e1 | c1 <;> rcases cmd (S'.env.canon p) with e2 | c2
    · intro _ h; cases h
    · intro _ h; cases h
    · intro _ _ h; cases h
    · rcases fileInit S.env S.lim L.m p deps true with e1 | r1 <;> rcases fileInit S'.env S.lim L'.m p deps true with e2 | r2
      · intro _ h; cases h
      · intro _ h; cases h
      · intro _ _ h; cases h
      · intro hs h h'
        cases h
        cases h'
        refine ⟨FileSame.add hR hs .file, fun o => ?_⟩
        show (if o = r2.1.reg.next then f else L'.force o) = if o = r1.1.reg.next then f else L.force o
        rw [hs.1.next, hL.2]
  | set n ts =>
    have hd : ∀ d ∈ n :: ts, G d ∧ σ d = d := hn
    have hs := callD_ren hR (lim := S.lim) (w := ⟨L.m, L.m⟩) (w' := ⟨L'.m, L'.m⟩) hL.1 (cl := .fileset n ts [])
      (by intro m hm; exact (hd m (by simpa [CallD.names] using hm)).1)
    simp only [CallD.ren, callD, (hd n (by simp)).2, map_fixed (l := ts) fun m hm => (hd m (List.mem_cons_of_mem _ hm)).2, List.map_nil] at hs
    simp only [Reg.run, addFileset, hlim, bind, Except.bind] at h h'
    clear hn
    revert h'
    revert h
    revert hs
    rcases filesetG S.env S.lim ⟨L.m, L.m⟩ n ts [] false with e1 | w1 <;>
      rcases filesetG S'.env S.lim ⟨L'.m, L'.m⟩ n ts [] false with e2 | w2
    · intro _ h; cases h
    · intro _ h; cases h
    · intro _ _ h; cases h
    · intro hs h h'
      cases h
      cases h'
      exact ⟨hs, hL.2⟩

theorem runs_ren (hR : Renames σ G S.env S'.env) (hlim : S'.lim = S.lim) {rs : List Reg}
    (hn : ∀ r ∈ rs, ∀ n ∈ r.names, G n ∧ σ n = n) : ∀ {L L' : LReg}, LCopied σ G L L' →
    rs.foldlM (Reg.run S) L = .ok L1 → rs.foldlM (Reg.run S') L' = .ok L1' → LCopied σ G L1 L1' := by
  induction rs with
  | nil => intro L L' hL h h'; cases h; cases h'; exact hL
  | cons r rs ih =>
    intro L L' hL h h'
    simp only [List.foldlM_cons, bind, Except.bind] at h h'
    split at h
    · cases h
    · rename_i L2 h2
      split at h'
      · cases h'
      · rename_i L2' h2'
        exact ih (fun r' hr' => hn r' (by simp [hr'])) (Reg.run_ren hR hlim (hn r (by simp)) hL h2 h2') h h'

/-- a registration without its command -/
def Reg.bare : Reg → Reg
  | .src p => .src p
  | .file p deps f _ => .file p deps f fun _ => .ok ""
  | .set n ts => .set n ts

theorem Reg.names_bare (r : Reg) : r.bare.names = r.names := by cases r <;> rfl

theorem Reg.run_bare {r : Reg} (h : r.run S L = .ok L1) {K : LReg} (h1 : K.m = L.m) (h2 : K.force = L.force) :
    ∃ K1, r.bare.run S K = .ok K1 ∧ K1.m = L1.m ∧ K1.force = L1.force := by
  cases r with
  | src p =>
    simp only [Reg.run, addSource, Reg.bare, bind, Except.bind, h1] at h ⊢
    split at h
    · cases h
    · cases h
      exact ⟨_, rfl, rfl, h2⟩
  | file p deps f cmd =>
    simp only [Reg.run, addFile, Reg.bare, bind, Except.bind, h1, h2] at h ⊢
    split at h
    · cases h
    · split at h
      · cases h
      · cases h
        exact ⟨_, rfl, rfl, rfl⟩
  | set n ts =>
    simp only [Reg.run, addFileset, Reg.bare, bind, Except.bind, h1] at h ⊢
    split at h
    · cases h
    · cases h
      exact ⟨_, rfl, rfl, h2⟩

theorem runs_bare {rs : List Reg} : ∀ {L : LReg}, rs.foldlM (Reg.run S) L = .ok L1 → ∀ {K : LReg}, K.m = L.m → K.force = L.force →
    ∃ K1, (rs.map Reg.bare).foldlM (Reg.run S) K = .ok K1 ∧ K1.m = L1.m ∧ K1.force = L1.force := by
  induction rs with
  | nil => intro L h K h1 h2; cases h; exact ⟨K, rfl, h1, h2⟩
  | cons r rs ih =>
    intro L h K h1 h2
    simp only [List.foldlM_cons, bind, Except.bind] at h
    split at h
    · cases h
    · rename_i L2 hL2
      obtain ⟨K2, k1, k2, k3⟩ := Reg.run_bare hL2 h1 h2
      obtain ⟨K1, m1, m2, m3⟩ := ih h k2 k3
      refine ⟨K1, ?_, m2, m3⟩
      simp only [List.map_cons, List.foldlM_cons, bind, Except.bind, k1]
      exact m1

/-- registrations that differ at most in their commands -/
theorem runs_ren_bare (hR : Renames σ G S.env S'.env) (hlim : S'.lim = S.lim) {rs rs' : List Reg}
    (hb : rs'.map Reg.bare = rs.map Reg.bare) (hn : ∀ r ∈ rs, ∀ n ∈ r.names, G n ∧ σ n = n) (hL : LCopied σ G L L')
    (h : rs.foldlM (Reg.run S) L = .ok L1) (h' : rs'.foldlM (Reg.run S') L' = .ok L1') : LCopied σ G L1 L1' := by
  obtain ⟨K, k1, k2, k3⟩ := runs_bare h rfl rfl
  obtain ⟨K', k1', k2', k3'⟩ := runs_bare h' rfl rfl
  rw [hb] at k1'
  have := runs_ren hR hlim (by
    intro r hr n hn'
    obtain ⟨r0, hr0, rfl⟩ := List.mem_map.1 hr
    rw [Reg.names_bare] at hn'
    exact hn r0 hr0 n hn') hL k1 k1'
  unfold LCopied at this ⊢
  rw [← k2, ← k3, ← k2', ← k3']
  exact this

theorem regs_bare {M : Parts} {lh : String} {o1 o2 o1' o2' : CxxOpts} :
    (M.regs S lh o1 o2).map Reg.bare = (M.regs S lh o1' o2').map Reg.bare := by
  simp only [Parts.regs, unitRegs, List.map_append, List.map_flatMap, List.map_cons, List.map_nil, List.map_map, Reg.bare,
    Function.comp_def]

theorem regs_all_names {M : Parts} {lh : String} {o1 o2 : CxxOpts} {r : Reg} (hr : r ∈ M.regs S lh o1 o2) {n : String}
    (hn : n ∈ r.names) : n ∈ M.names S lh := by
  unfold Parts.regs at hr
  unfold Parts.names Parts.raw Parts.made
  simp only [List.mem_append, List.mem_flatMap, List.mem_map, List.mem_singleton] at hr ⊢
  rcases hr with ((((⟨m, hm, hr⟩ | hr) | ⟨m, hm, hr⟩) | ⟨m, hm, hr⟩) | ⟨u, hu, hr⟩) | ⟨e, he, rfl⟩
  · have hn' : n = m.1 ∨ n = m.2 := by
      simp only [List.mem_cons, List.not_mem_nil, or_false] at hr
      rcases hr with rfl | rfl | rfl <;>
        simp only [Reg.names, List.mem_cons, List.not_mem_nil, or_false] at hn <;> tauto
    rcases hn' with rfl | rfl
    · exact Or.inl (Or.inl (Or.inl (Or.inr (Or.inl (Or.inl ⟨m, hm, rfl⟩)))))
    · exact Or.inl (Or.inl (Or.inr (Or.inl (Or.inl (Or.inl ⟨m, hm, rfl⟩)))))
  · subst hr
    simp only [Reg.names, List.mem_cons, List.mem_map] at hn
    rcases hn with rfl | ⟨m, hm, rfl⟩
    · exact Or.inl (Or.inl (Or.inl (Or.inl (Or.inl rfl))))
    · exact Or.inl (Or.inl (Or.inr (Or.inl (Or.inl (Or.inl ⟨m, hm, rfl⟩)))))
  · have hn' : n = m.1 ∨ n = m.2 ∨ n = lh ∨ n ∈ M.depends := by
      simp only [List.mem_cons, List.not_mem_nil, or_false] at hr
      rcases hr with rfl | rfl <;>
        simp only [Reg.names, List.mem_cons, List.mem_append, List.not_mem_nil, or_false] at hn <;> tauto
    rcases hn' with rfl | rfl | rfl | h
    · exact Or.inl (Or.inl (Or.inl (Or.inr (Or.inl (Or.inr ⟨m, hm, rfl⟩)))))
    · exact Or.inl (Or.inl (Or.inr (Or.inl (Or.inl (Or.inr ⟨m, hm, rfl⟩)))))
    · exact Or.inl (Or.inl (Or.inl (Or.inl (Or.inl rfl))))
    · exact Or.inl (Or.inl (Or.inl (Or.inl (Or.inr h))))
  · have hn' : n = m.1 ∨ n = m.2 ∨ n ∈ M.adds lh := by
      simp only [List.mem_cons, List.not_mem_nil, or_false] at hr
      rcases hr with rfl | rfl <;>
        simp only [Reg.names, List.mem_cons, List.mem_append, List.not_mem_nil, or_false] at hn <;> tauto
    rcases hn' with rfl | rfl | h
    · exact Or.inl (Or.inl (Or.inl (Or.inr (Or.inr ⟨m, hm, rfl⟩))))
    · exact Or.inl (Or.inl (Or.inr (Or.inl (Or.inr ⟨m, hm, rfl⟩))))
    · unfold Parts.adds at h
      simp only [List.mem_append, List.mem_singleton, List.mem_map] at h
      rcases h with (rfl | h) | ⟨m, hm, rfl⟩
      · exact Or.inl (Or.inl (Or.inl (Or.inl (Or.inl rfl))))
      · exact Or.inl (Or.inl (Or.inl (Or.inl (Or.inr h))))
      · exact Or.inl (Or.inl (Or.inr (Or.inl (Or.inl (Or.inr ⟨m, hm, rfl⟩)))))
  · have hn' : n = u.1 ∨ n = u.2.1 ∨ n = u.2.2 ∨ n ∈ S.hdrs u.2.2 ∨ n ∈ M.adds lh := by
      unfold unitRegs at hr
      simp only [List.mem_append, List.mem_cons, List.mem_map, List.not_mem_nil, or_false] at hr
      rcases hr with (rfl | ⟨g, hg, rfl⟩) | rfl | rfl <;>
        simp only [Reg.names, List.mem_cons, List.mem_append, List.not_mem_nil, or_false] at hn
      · tauto
      · subst hn; tauto
      · tauto
      · tauto
    rcases hn' with rfl | rfl | rfl | h | h
    · exact Or.inl (Or.inr ⟨u, hu, by simp [CUnit.ins]⟩)
    · exact Or.inl (Or.inl (Or.inr (Or.inr ⟨u, hu, by simp [CUnit.outs]⟩)))
    · exact Or.inl (Or.inl (Or.inr (Or.inr ⟨u, hu, by simp [CUnit.outs]⟩)))
    · exact Or.inl (Or.inr ⟨u, hu, by simp [CUnit.ins, h]⟩)
    · unfold Parts.adds at h
      simp only [List.mem_append, List.mem_singleton, List.mem_map] at h
      rcases h with (rfl | h) | ⟨m, hm, rfl⟩
      · exact Or.inl (Or.inl (Or.inl (Or.inl (Or.inl rfl))))
      · exact Or.inl (Or.inl (Or.inl (Or.inl (Or.inr h))))
      · exact Or.inl (Or.inl (Or.inr (Or.inl (Or.inl (Or.inr ⟨m, hm, rfl⟩)))))
  · simp only [Reg.names, List.mem_singleton] at hn
    subst hn
    exact Or.inr he

theorem regs_site {M : Parts} {lh : String} {o1 o2 : CxxOpts} (h : ∀ u ∈ M.us, S'.headers u.2.2 = S.headers u.2.2) :
    M.regs S' lh o1 o2 = M.regs S lh o1 o2 := by
  unfold Parts.regs
  have : M.us.flatMap (unitRegs S' o2 (M.adds lh)) = M.us.flatMap (unitRegs S o2 (M.adds lh)) := by
    refine List.flatMap_congr fun u hu => ?_
    unfold unitRegs Site.hdrs
    rw [h u hu]
  rw [this]

variable {tc : Toolchain} {fuel steps : Nat} {key : Nat → Nat} {lib lib' lib'' : Lib} {script name type : String}
  {target impl : Option String} {default : Bool} {kwargs : Opts} {b b' : Built}

/-- **C152**, C++ tasks: the same call in the site `S` and in another place, `S'`.  All names that are given, and all that are found in
dependency files, are the same in both places (relative names: `σ` replaces only the canonical paths).  Then the library and all targets
are in the new place what they are in the old one, with names replaced. -/
theorem C152_task {rule : String → List String → CxxOpts → Except Modules.Err String} (hR : Renames σ G S.env S'.env)
    (hlim : S'.lim = S.lim) (hhome : S'.env.home = S.env.home) (hty : Linked type rule) (hd : impl = none ∨ default = true)
    (hL : LCopied σ G L L')
    (h : task S tc fuel steps key lib L script name target impl default type kwargs = .ok ((lib', L1), b))
    (h' : task S' tc fuel steps key lib L' script name target impl default type kwargs = .ok ((lib'', L1'), b')) :
    lib'' = lib' ∧ ∃ lib1 loc,
      lib.module script (taskModule name type) impl default (taskOpts name type target kwargs) = .ok lib1 ∧
      finalOpts tc S.env.home fuel steps key lib1 (taskModule name type) none (setDefaults tc []) = .ok (lib', loc) ∧
      ∀ M, PartsOf S loc M → PartsOf S' loc M →
        (∀ m ∈ M.headers, S.env.home m.1 = m.1 ∧ S.env.home m.2 = m.2) →
        (∀ u ∈ M.us, S'.headers u.2.2 = S.headers u.2.2) →
        (∀ n ∈ M.names S (taskModule name type ++ "__local_headers__") ++ [target.getD name], G n ∧ σ n = n) →
        b' = b ∧ LCopied σ G L1 L1' ∧
        ∀ {α : Type} (P P' : Proj α), L1.Is P → L1'.Is P' →
          (∀ o < L1.m.reg.next, P'.upd o = P.upd o ∧ ∀ f, P'.cmd o f = P.cmd o fun p => f (σ p)) →
          ∀ root, G root → Moved σ S.env.canon S'.env.canon P P' root := by
  obtain ⟨l1, p1, loc, R, N, q1, opts, La, a1, a2, a3, a4, a5, a6, a7, a8, a9, a10, _⟩ := task_steps hty hd h
  obtain ⟨l2, p2, loc', R', N', q2, opts', Lb, b1, b2, b3, b4, b5, b6, b7, b8, b9, b10, _⟩ := task_steps hty hd h'
  rw [a1] at b1
  cases b1
  rw [hhome, a4] at b4
  cases b4
  refine ⟨rfl, l1, loc, a1, a4, fun M hM hM' hh hhd hn => ?_⟩
  obtain rfl := hM.unique a7
  obtain rfl := hM'.unique b7
  rw [registerParts_regs hh] at a8
  rw [registerParts_regs (by rw [hhome]; exact hh), regs_site hhd] at b8
  have hnames : ∀ {o1 o2 : CxxOpts}, ∀ r ∈ M.regs S (taskModule name type ++ "__local_headers__") o1 o2, ∀ n ∈ r.names, G n ∧ σ n = n :=
    fun r hr n hn' => hn n (List.mem_append_left _ (regs_all_names hr hn'))
  have hobj : ∀ n ∈ M.objects, G n ∧ σ n = n := fun n hn' => hn n (by
    refine List.mem_append_left _ ?_
    unfold Parts.objects at hn'
    unfold Parts.names Parts.made
    simp only [List.mem_append, List.mem_map, List.mem_flatMap] at hn' ⊢
    rcases hn' with ⟨u, hu, rfl⟩ | hn'
    · exact Or.inl (Or.inl (Or.inr (Or.inr ⟨u, hu, by simp [CUnit.outs]⟩)))
    · exact Or.inr hn')
  have hab : LCopied σ G La Lb := runs_ren_bare hR hlim regs_bare hnames hL a8 b8
  have hfin : LCopied σ G L1 L1' := by
    refine runs_ren_bare hR hlim (rs := [.file (target.getD name) M.objects false fun u => rule u M.objects opts])
      (rs' := [.file (target.getD name) M.objects false fun u => rule u M.objects opts']) rfl ?_ hab ?_ ?_
    · intro r hr n hn'
      rw [List.mem_singleton.1 hr] at hn'
      rcases List.mem_cons.1 hn' with rfl | hn'
      · exact hn _ (by simp)
      · exact hobj n hn'
    · simp only [List.foldlM_cons, List.foldlM_nil, Reg.run, bind_pure]; exact a9
    · simp only [List.foldlM_cons, List.foldlM_nil, Reg.run, bind_pure]; exact b9
  refine ⟨by rw [a10, b10, hfin.1.next], hfin, ?_⟩
  rintro α P P' ⟨c1, c2, c3⟩ ⟨d1, d2, d3⟩ hc root hroot
  exact hfin.1.moved hR c1 c2 d1 d2 (fun o ho => ⟨by rw [d3, c3, hfin.2], hc o ho⟩) hroot

end Licant.Cxx
