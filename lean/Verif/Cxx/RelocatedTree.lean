/-
C++ programs in a directory that is copied to another place: C152.
-/
import Verif.Cxx.Relocated
import Verif.Cxx.Program
import Verif.Make.RelocatedTree

set_option autoImplicit false

namespace Licant.Cxx
open Licant.Py Licant.Core Licant.Make Relation
open Licant.Modules (Val Opts Toolchain Lib IsModule)

section
variable {σ : String → String} {G : String → Prop} {E E' : Env} {c c' : MReg} {F A : List String} {S S' : Site}

/-- nothing leads to the path -/
theorem free_ren (hR : Renames σ G E E') (hE : E.Sane) (hc : Copied σ G c c') {p : String} (hp : G p) (h : Free E c p) :
    Free E' c' (σ p) := by
  obtain ⟨g1, g2⟩ := hR.canon p hp
  intro n o hn hr
  rw [g2] at hn
  rcases hr with hr | ⟨_, hr⟩
  · have hk := Dict.mem_of_get hr
    rw [hc.targets, List.mem_map] at hk
    obtain ⟨⟨m, o'⟩, hm, e⟩ := hk
    have e : σ m = n := congrArg Prod.fst e
    subst e
    have hm : G m := hc.names m (List.mem_map.2 ⟨_, hm, rfl⟩)
    rw [hc.get hR hm] at hr
    rw [(hR.canon m hm).2] at hn
    exact h m o (hR.inj _ _ (hR.canon m hm).1 g1 hn) (Or.inl hr)
  · rw [hn, hc.get hR g1] at hr
    exact h (E.canon p) o (hE.idem p) (Or.inl hr)

/-- there is room for the files in the new place, too -/
theorem room_ren (hR : Renames σ G E E') (hA : KeepsAbove σ G) (hE' : E'.Sane) (hc : Copied σ G c c')
    (hF : ∀ f ∈ F ++ A, G f ∧ σ f = f) (h : Room E c F A) : Room E' c' F A := by
  have can : ∀ f ∈ F ++ A, G (E.canon f) ∧ E'.canon f = σ (E.canon f) := by
    intro f hf
    obtain ⟨g, e⟩ := hF f hf
    have := hR.canon f g
    rw [e] at this
    exact this
  have inF : ∀ {f}, f ∈ F → f ∈ F ++ A := fun h => List.mem_append_left _ h
  have inA : ∀ {f}, f ∈ A → f ∈ F ++ A := fun h => List.mem_append_right _ h
  have res : ∀ f ∈ F ++ A, ∀ {o}, Resolves E'.canon c'.reg f o → Resolves E.canon c.reg f o := by
    intro f hf o ho
    obtain ⟨g, e⟩ := hF f hf
    rw [← e] at ho
    exact (hc.resolves hR g).1 ho
  refine ⟨?_, ?_, ?_, ?_, ?_, ?_, ?_⟩
  · intro f hf
    obtain ⟨g, e⟩ := hF f (inF hf)
    have := noStar_ren hR hE' g (h.nostar f hf).2
    rw [e] at this
    exact ⟨(h.nostar f hf).1, this⟩
  · intro r hr
    obtain ⟨g, e⟩ := hF r (inA hr)
    have := hR.ex r g
    rw [e] at this
    rw [this]
    exact h.there r hr
  · intro f hf g hg q' hq
    rw [(can g (inF hg)).2] at hq
    obtain ⟨q, h1, h2, rfl⟩ := missingDir_ren hR hE' (can g (inF hg)).1 hq
    obtain ⟨h3, h4⟩ := h.apart f hf g hg q h1
    rw [(can f hf).2]
    exact ⟨fun e => h3 (hR.inj _ _ (can f hf).1 h2 e), fun hi => h4 (hA _ _ h2 (can f hf).1 hi)⟩
  · intro f hf
    rw [(can f hf).2]
    exact notdir_ren hA hc (can f hf).1 (h.notdir f hf)
  · intro f hf x hx
    rw [hc.kinds]
    exact h.known f hf x (res f (inF hf) hx)
  · intro f hf x hx
    rw [hc.kinds]
    exact h.knownA f hf x (res f (inA hf) hx)
  · intro f hf
    rw [(can f (inF hf)).2]
    exact clear_ren hR hA hE' hc (can f (inF hf)).1 (h.clear f hf)

/-- the files of a module fit into the new place, too -/
theorem fit_ren (hR : Renames σ G S.env S'.env) (hA : KeepsAbove σ G) (hE : S.env.Sane) (hE' : S'.env.Sane)
    (hhome : S'.env.home = S.env.home) (hc : Copied σ G c c') {M : Parts} {lh tgt : String}
    (hhd : ∀ u ∈ M.us, S'.headers u.2.2 = S.headers u.2.2) (hn : ∀ n ∈ M.names S lh ++ [tgt], G n ∧ σ n = n)
    (hF : ∀ f ∈ F ++ A, G f ∧ σ f = f) (h : M.Fit S c lh tgt F A) : M.Fit S' c' lh tgt F A := by
  have hins : M.us.flatMap (CUnit.ins S') = M.us.flatMap (CUnit.ins S) := by
    refine List.flatMap_congr fun u hu => ?_
    unfold CUnit.ins Site.hdrs
    rw [hhd u hu]
  have nlh : G lh ∧ σ lh = lh := hn lh (by simp [Parts.names])
  have nraw : ∀ n ∈ M.raw, G n ∧ σ n = n := fun n h => hn n (by simp [Parts.names, h])
  have nout : ∀ n ∈ M.made ++ [tgt], G n ∧ σ n = n := by
    intro n h
    rcases List.mem_append.1 h with h | h
    · exact hn n (by simp [Parts.names, h])
    · exact hn n (List.mem_append_right _ h)
  have nins : ∀ n ∈ M.us.flatMap (CUnit.ins S), G n ∧ σ n = n := by
    intro n h
    refine hn n (List.mem_append_left _ ?_)
    unfold Parts.names
    exact List.mem_append_left _ (List.mem_append_right _ h)
  have nouts : ∀ n ∈ M.us.flatMap CUnit.outs ++ [tgt], G n ∧ σ n = n := by
    intro n h
    refine nout n ?_
    rcases List.mem_append.1 h with h | h
    · exact List.mem_append_left _ (by unfold Parts.made; exact List.mem_append_right _ h)
    · exact List.mem_append_right _ h
  have nex : ∀ n ∈ M.extra, G n ∧ σ n = n := fun n h => hn n (by simp [Parts.names, h])
  have ntgt : G tgt ∧ σ tgt = tgt := hn tgt (by simp)
  have ndep : ∀ n ∈ M.depends, G n ∧ σ n = n := fun n h => hn n (by simp [Parts.names, h])
  have can : ∀ {f}, G f ∧ σ f = f → G (S.env.canon f) ∧ S'.env.canon f = σ (S.env.canon f) := by
    rintro f ⟨g, e⟩
    have := hR.canon f g
    rw [e] at this
    exact this
  have ne : ∀ {f p}, G f ∧ σ f = f → G p ∧ σ p = p → S.env.canon f ≠ S.env.canon p → S'.env.canon f ≠ S'.env.canon p := by
    intro f p hf hp hne
    rw [(can hf).2, (can hp).2]
    exact fun e => hne (hR.inj _ _ (can hf).1 (can hp).1 e)
  have free : ∀ {p}, G p ∧ σ p = p → Free S.env c p → Free S'.env c' p := by
    intro p hp hfr
    have := free_ren hR hE hc hp.1 hfr
    rw [hp.2] at this
    exact this
  refine ⟨room_ren hR hA hE' hc hF h.room, ?_, ?_, ?_, ?_, ?_, ?_, ?_, ?_, ?_⟩
  · rw [hins]; exact h.files
  · rw [hhome]; exact h.homes
  · have e : (M.made ++ [tgt]).map S'.env.canon = ((M.made ++ [tgt]).map S.env.canon).map σ := by
      rw [List.map_map]
      exact List.map_congr_left fun n hn' => (can (nout n hn')).2
    rw [e]
    refine List.Nodup.map_on ?_ h.outputs
    intro x hx y hy exy
    obtain ⟨a, ha, rfl⟩ := List.mem_map.1 hx
    obtain ⟨b, hb, rfl⟩ := List.mem_map.1 hy
    exact hR.inj _ _ (can (nout a ha)).1 (can (nout b hb)).1 exy
  · exact fun p hp => free (nout p hp) (h.free p hp)
  · exact fun f hf p hp => ne (nraw f hf) (nout p hp) (h.raws f hf p hp)
  · rw [hins]
    exact fun f hf p hp => ne (nins f hf) (nouts p hp) (h.ins f hf p hp)
  · exact fun f hf => ne (nex f hf) ntgt (h.extras f hf)
  · obtain ⟨e1, e2⟩ := globs_ren hR (l := M.depends) fun d hd => (ndep d hd).1
    rw [map_fixed fun n h => (ndep n h).2] at e1
    rw [e1]
    intro r' hr'
    obtain ⟨r, hr, rfl⟩ := List.mem_map.1 hr'
    obtain ⟨h1, h2, h3⟩ := h.depends r hr
    have fixA : r ∈ A → σ r ∈ A := fun hA => by rw [(hF r (List.mem_append_right _ hA)).2]; exact hA
    refine ⟨fun p hp => ?_, h2.imp (leads_ren hR hc (e2 r hr)) fixA, fun hx => ?_⟩
    · have := canon_ne_ren hR (nout p hp).1 (e2 r hr) (h1 p hp)
      rw [(nout p hp).2] at this
      exact this
    · rw [hR.ex r (e2 r hr)] at hx
      exact fixA (h3 hx)
  · obtain ⟨h1, h2, h3, h4⟩ := h.set
    refine ⟨free nlh h1, h2, ?_, fun f hf => ⟨ne (hF f (List.mem_append_left _ hf)) nlh (h4 f hf).1, fun hm => ?_⟩⟩
    · have := hR.ex lh nlh.1
      rw [nlh.2] at this
      rw [this]; exact h3
    · rw [(can (hF f (List.mem_append_left _ hf))).2, (can nlh).2] at hm
      obtain ⟨q, k1, k2, k3⟩ := missingDir_ren hR hE' (can (hF f (List.mem_append_left _ hf))).1 hm
      exact (h4 f hf).2 (by rw [hR.inj _ _ (can nlh).1 k2 k3]; exact k1)

end

section
open Licant.Py.Path Licant.Make.Fs

/-- relative paths with no `.`, `..` or `~` -/
def Rel (n : String) : Prop := ∃ q : List Str, q ≠ [] ∧ (∀ c ∈ q, Path.Plain c ∧ '~' ∉ c) ∧ n = String.ofList (relPath q)

theorem Rel.fixed {n : String} {d d' : List Str} (h : Rel n) : Inside d n ∧ moveDir d d' n = n := by
  obtain ⟨q, h1, h2, rfl⟩ := h
  exact ⟨⟨q, h2, Or.inr ⟨h1, rfl⟩⟩, moveDir_rel h1 fun c hc => (h2 c hc).1⟩

variable {T T' : Tree} {d d' : List Str} {S S' : Site} {L L' L1 L1' : LReg} {tc : Toolchain} {fuel steps : Nat} {key : Nat → Nat}
  {lib lib' lib'' : Lib} {script name type : String} {target impl : Option String} {default : Bool} {kwargs : Opts} {b b' : Built}

/-- **C152** for a C++ program in a file tree.  Everything in the directory `d` is copied to `d'`, in another tree or in the same one,
where everything else may be different.  `application`, `shared_library` or `static_library` is called in the same way in both places, and
all names, also those in dependency files, are relative.  If the files of the module fit in the old place (as in C96), they fit in the new
one, and the final target is registered there, too.  If both are built successfully, the same commands are run, and the files have the
same contents afterwards. -/
theorem C152_program {α : Type} {rule : String → List String → CxxOpts → Except Modules.Err String}
    (hd : CopiedDir T T' d d') (hT : NoDangling T) (hT' : NoDangling T')
    (hE : Realises T d S.env) (hE' : Realises T' d' S'.env) (hs : ∀ c ∈ d, '*' ∉ c) (hs' : ∀ c ∈ d', '*' ∉ c)
    (hh : ∀ p : String, p.toList.head? ≠ some '~' → S.env.home p = p) (hhome : S'.env.home = S.env.home)
    (hg : ∀ p, Inside d p → '*' ∈ p.toList →
      S'.env.glob (moveDir d d' p) = (S.env.glob p).map (moveDir d d') ∧ ∀ q ∈ S.env.glob p, Inside d q)
    (hlim : S'.lim = S.lim) (hty : Linked type rule) (hdf : impl = none ∨ default = true)
    (hL : LCopied (moveDir d d') (Inside d) L L') (hgd : GoodD S.env L.m) (hgd' : GoodD S'.env L'.m)
    (h : task S tc fuel steps key lib L script name target impl default type kwargs = .ok ((lib', L1), b))
    (h' : task S' tc fuel steps key lib L' script name target impl default type kwargs = .ok ((lib'', L1'), b')) :
    ∃ lib1 loc x,
      lib.module script (taskModule name type) impl default (taskOpts name type target kwargs) = .ok lib1 ∧
      finalOpts tc S.env.home fuel steps key lib1 (taskModule name type) none (setDefaults tc []) = .ok (lib', loc) ∧
      b = .target x ∧
      ∀ M F A, PartsOf S loc M → PartsOf S' loc M → (∀ u ∈ M.us, S'.headers u.2.2 = S.headers u.2.2) →
        (∀ n ∈ M.names S (taskModule name type ++ "__local_headers__") ++ [target.getD name] ++ F ++ A, Rel n) →
        M.Fit S L.m (taskModule name type ++ "__local_headers__") (target.getD name) F A →
        b' = .target x ∧ LCopied (moveDir d d') (Inside d) L1 L1' ∧
        M.Fit S' L'.m (taskModule name type ++ "__local_headers__") (target.getD name) F A ∧
        ∀ {P P' : Proj α} (_ : L1.Is P) (_ : L1'.Is P')
          (_ : ∀ p q, q ∈ P.parents p → IsAnc q p) (_ : ∀ p q, q ∈ P'.parents p → IsAnc q p)
          (_ : ∀ o < L1.m.reg.next, P'.upd o = P.upd o ∧ ∀ f, P'.cmd o f = P.cmd o fun p => f (moveDir d d' p))
          {fs fs' : FS α} (_ : ∀ o, Closure S.env.canon P.reg x o → IsPath P o → fs' (moveDir d d' (P.path o)) = fs (P.path o))
          {cache cache' : FileCache} (_ : Accurate P fs cache) (_ : Accurate P' fs' cache')
          {B : Invocation P S.env.canon x fs cache} {B' : Invocation P' S'.env.canon x fs' cache'} {clock clock' : Nat}
          {tr tr' : List (Ev α)} {s s' : St α} (_ : B.Run clock tr s) (_ : B'.Run clock' tr' s')
          (_ : s.Succeeded) (_ : s'.Succeeded),
          (∀ p, (∃ o ∈ B.commands tr, moveDir d d' (P.path o) = p) ↔ (∃ o ∈ B'.commands tr', P'.path o = p)) ∧
          (Functional P S.env.canon → Functional P' S'.env.canon → Faithful B clock tr → Faithful B' clock' tr' → Productive B tr →
            Productive B' tr' → ∀ o, Closure S.env.canon P.reg x o → P.kind o = .file ∨ P.kind o = .source →
              contents s'.fs (moveDir d d' (P.path o)) = contents s.fs (P.path o)) := by
  have hR := tree_renames hd hE hE' hs hs' (fun p hp => ⟨hh p hp, by rw [hhome]; exact hh p hp⟩) hg
  have hSn := hE.sane hT hd.dir
  have hSn' := hE'.sane hT' hd.symm.dir
  obtain ⟨_, lib1, loc, a1, a2, a3⟩ := C152_task hR hlim hhome hty hdf hL h h'
  obtain ⟨lib2, _, loc2, opts, x, _, _, _, _, b1, _, _, b4, b5, _, _, _, b6⟩ := task_program hSn hty hdf hgd h
  obtain ⟨lib3, _, loc3, opts', x', _, _, _, _, c1, _, _, c4, c5, _, _, _, c6⟩ := task_program hSn' hty hdf hgd' h'
  rw [a1] at b1 c1
  cases b1
  cases c1
  rw [a2] at b4
  cases b4
  obtain ⟨rfl, _⟩ := C152_task hR hlim hhome hty hdf hL h h'
  rw [hhome, a2] at c4
  cases c4
  refine ⟨lib1, loc, x, a1, a2, b5, fun M F A hM hM' hhd hrel hfit => ?_⟩
  have hn : ∀ n ∈ M.names S (taskModule name type ++ "__local_headers__") ++ [target.getD name], Inside d n ∧ moveDir d d' n = n :=
    fun n hn => (hrel n (List.mem_append_left _ (List.mem_append_left _ hn))).fixed
  have hF : ∀ f ∈ F ++ A, Inside d f ∧ moveDir d d' f = f := by
    intro f hf
    refine (hrel f ?_).fixed
    rw [List.append_assoc _ F A]
    exact List.mem_append_right _ hf
  obtain ⟨e1, e2, e3⟩ := a3 M hM hM' hfit.homes hhd hn
  have hfit' := fit_ren hR (tree_keepsAbove hd) hSn hSn' hhome hL.1 hhd hn hF hfit
  have ex : x' = x := by
    rw [e1, b5] at c5
    cases c5; rfl
  subst ex
  refine ⟨c5, e2, hfit', ?_⟩
  intro P P' hP hP' hpar hpar' hc fs fs' hfs cache cache' hacc hacc' B B' clock clock' tr tr' s s' hx hx' hsu hsu'
  obtain ⟨p1, _, _, _, p2⟩ := b6 M F A hM hfit
  obtain ⟨s1, _, s3, _⟩ := p2 P hP hpar
  obtain ⟨q1, _, _, _, q2⟩ := c6 M F A hM' hfit'
  obtain ⟨t1, _, _, _⟩ := q2 P' hP' hpar'
  obtain ⟨g, e⟩ := hn (target.getD name) (by simp)
  refine C152_partial s1 t1 (e3 P P' hP hP' hc _ g) ?_ ?_ (by rw [s3]; simp) hfs hacc hacc' hx hx' hsu hsu'
  · rw [hP.1]; exact p1.named _ rfl
  · rw [hP'.1, e]; exact q1.named _ rfl

end

end Licant.Cxx
