/-
A project that can be built here can be built in another place: C152.
-/
import Verif.Make.Order
import Verif.Make.Relocated

set_option autoImplicit false

namespace Licant.Make
open Licant.Py Licant.Core Relation

variable {σ : String → String} {G : String → Prop} {E E' : Env} {c c' : MReg} {lim : Nat}

/-- no path of the project comes to be above another one -/
def KeepsAbove (σ : String → String) (G : String → Prop) : Prop :=
  ∀ p q, G p → G q → IsAnc (σ q) (σ p) → IsAnc q p

/-- the missing directories above a path -/
theorem missing_ren (hR : Renames σ G E E') (hE' : E'.Sane) {p : String} (hp : G p) :
    ∀ i, E'.ex (anc (σ p) i) = false → E.ex (anc p i) = false ∧ G (anc p i) ∧ anc (σ p) i = σ (anc p i) := by
  intro i
  induction i with
  | zero =>
    intro h
    have h : E'.ex (parent (σ p)) = false := h
    rw [hR.exDir p hp] at h
    exact ⟨h, hR.dir p hp h⟩
  | succ i ih =>
    intro h
    have h0 : E'.ex (anc (σ p) i) = false := by
      by_contra hc
      rw [Bool.not_eq_false] at hc
      rw [hE'.up _ _ hc] at h
      cases h
    obtain ⟨_, h2, h3⟩ := ih h0
    rw [← parent_anc, h3, hR.exDir _ h2] at h
    obtain ⟨h4, h5⟩ := hR.dir _ h2 h
    rw [← parent_anc, ← parent_anc, h3]
    exact ⟨h, h4, h5⟩

theorem missingDir_ren (hR : Renames σ G E E') (hE' : E'.Sane) {p q' : String} (hp : G p) (h : MissingDir E' (σ p) q') :
    ∃ q, MissingDir E p q ∧ G q ∧ q' = σ q := by
  obtain ⟨i, h1, rfl⟩ := h
  obtain ⟨h2, h3, h4⟩ := missing_ren hR hE' hp i h1
  exact ⟨_, ⟨i, h2, rfl⟩, (hR.canon _ h3).1, by rw [h4, (hR.canon _ h3).2]⟩

theorem Copied.kinds (h : Copied σ G c c') (o : Nat) : c'.kind o = c.kind o := by
  by_cases ho : o < c.reg.next
  · exact h.kind o ho
  · rw [(h.blank o (by omega)).1, (h.blank o (by omega)).2]

theorem Copied.known (h : Copied σ G c c') {o : Nat} (hk : c.kind o ≠ .other) :
    G (c.reg.obj o).tgt ∧ (c'.reg.obj o).tgt = σ (c.reg.obj o).tgt := by
  have ho : o < c.reg.next := by
    by_contra hn
    exact hk (h.blank o (by omega)).1
  exact ⟨h.tgts o ho, by rw [h.obj o ho]; rfl⟩

theorem noStar_ren (hR : Renames σ G E E') (hE' : E'.Sane) {p : String} (hp : G p) (h : NoStar E p) : NoStar E' (σ p) := by
  obtain ⟨g1, g2⟩ := hR.canon p hp
  unfold NoStar
  rw [g2]
  refine ⟨fun hs => h.1 ((hR.star _ g1).1 hs), fun q' hq hs => ?_⟩
  obtain ⟨q, h1, h2, rfl⟩ := missingDir_ren hR hE' g1 hq
  exact h.2 q h1 ((hR.star _ h2).1 hs)

theorem clear_ren (hR : Renames σ G E E') (hA : KeepsAbove σ G) (hE' : E'.Sane) (hc : Copied σ G c c') {t : String} (ht : G t)
    (h : Clear E c t) : Clear E' c' (σ t) := by
  refine ⟨?_, ?_⟩
  · intro a q' ha hq hi
    rw [hc.kinds] at ha
    obtain ⟨q, h1, h2, rfl⟩ := missingDir_ren hR hE' ht hq
    obtain ⟨k1, k2⟩ := hc.known (o := a) (by rcases ha with e | e <;> rw [e] <;> simp)
    rw [k2] at hi
    exact h.nofile a q ha h1 (hA _ _ h2 k1 hi)
  · intro i o he ho
    obtain ⟨h1, h2, h3⟩ := missing_ren hR hE' ht i he
    rw [hc.kinds]
    rw [h3, (hR.canon _ h2).2, hc.resolves hR h2, hc.resolves hR (hR.canon _ h2).1] at ho
    exact h.taken i o h1 ho

theorem notdir_ren (hA : KeepsAbove σ G) (hc : Copied σ G c c') {t : String} (ht : G t)
    (h : ∀ b, c.kind b = .dir → ¬ IsAnc t (c.reg.obj b).tgt) : ∀ b, c'.kind b = .dir → ¬ IsAnc (σ t) (c'.reg.obj b).tgt := by
  intro b hb hi
  rw [hc.kinds] at hb
  obtain ⟨k1, k2⟩ := hc.known (o := b) (by rw [hb]; simp)
  rw [k2] at hi
  exact h b hb (hA _ _ k1 ht hi)

theorem fitsD_ren (hR : Renames σ G E E') (hA : KeepsAbove σ G) (hE' : E'.Sane) (hc : Copied σ G c c') {p : String} (hp : G p)
    (h : FitsD E c p) : FitsD E' c' (σ p) := by
  obtain ⟨g1, g2⟩ := hR.canon p hp
  refine ⟨noStar_ren hR hE' hp h.nostar, ?_, ?_, ?_, ?_⟩
  · intro o ho
    rw [g2, hc.resolves hR g1] at ho
    exact h.new o ho
  · rw [g2]
    intro q' hq
    obtain ⟨q, h1, h2, rfl⟩ := missingDir_ren hR hE' g1 hq
    exact ⟨fun e => (h.own q h1).1 (hR.inj _ _ g1 h2 e), fun hi => (h.own q h1).2 (hA _ _ h2 g1 hi)⟩
  · rw [g2]
    exact notdir_ren hA hc g1 h.notdir
  · rw [g2]
    exact clear_ren hR hA hE' hc g1 h.clear

theorem leads_ren (hR : Renames σ G E E') (hc : Copied σ G c c') {r : String} (hr : G r) (h : Leads E c r) : Leads E' c' (σ r) := by
  obtain ⟨o, h1, h2⟩ := h
  exact ⟨o, (hc.resolves hR hr).2 h1, by rw [hc.kinds]; exact h2⟩

theorem canon_ne_ren (hR : Renames σ G E E') {p r : String} (hp : G p) (hr : G r) (h : E.canon r ≠ E.canon p) :
    E'.canon (σ r) ≠ E'.canon (σ p) := by
  rw [(hR.canon p hp).2, (hR.canon r hr).2]
  exact fun e => h (hR.inj _ _ (hR.canon r hr).1 (hR.canon p hp).1 e)

theorem depD_ren (hR : Renames σ G E E') (hA : KeepsAbove σ G) (hE' : E'.Sane) (hc : Copied σ G c c') {p r : String} (hp : G p) (hr : G r)
    (h : DepD E c p r) : DepD E' c' (σ p) (σ r) := by
  obtain ⟨h1, h⟩ := h
  refine ⟨canon_ne_ren hR hp hr h1, ?_⟩
  rcases h with h | ⟨h2, h3, h4, h5⟩
  · exact Or.inl (leads_ren hR hc hr h)
  · refine Or.inr ⟨by rw [hR.ex r hr]; exact h2, ?_, ?_, ?_⟩
    · intro o ho
      rw [hc.kinds]
      exact h3 o ((hc.resolves hR hr).1 ho)
    · rw [(hR.canon r hr).2]
      exact notdir_ren hA hc (hR.canon r hr).1 h4
    · rw [(hR.canon p hp).2, (hR.canon r hr).2]
      intro q' hq hi
      obtain ⟨q, g1, g2, rfl⟩ := missingDir_ren hR hE' (hR.canon p hp).1 hq
      exact h5 q g1 (hA _ _ g2 (hR.canon r hr).1 hi)

theorem sourced_ren (hR : Renames σ G E E') (hA : KeepsAbove σ G) (hE' : E'.Sane) (hc : Copied σ G c c') {src : String} (hp : G src)
    (h : (∃ o, Resolves E.canon c.reg src o ∧ c.kind o ≠ .dir) ∨ FitsD E c src) :
    (∃ o, Resolves E'.canon c'.reg (σ src) o ∧ c'.kind o ≠ .dir) ∨ FitsD E' c' (σ src) := by
  rcases h with ⟨o, h1, h2⟩ | h
  · exact Or.inl ⟨o, (hc.resolves hR hp).2 h1, by rw [hc.kinds]; exact h2⟩
  · exact Or.inr (fitsD_ren hR hA hE' hc hp h)

/-- A call that is reasonable here is reasonable there. -/
theorem reasonableD_ren (hR : Renames σ G E E') (hA : KeepsAbove σ G) (hE' : E'.Sane) (hc : Copied σ G c c') {cl : CallD}
    (hG : ∀ n ∈ cl.names, G n) (h : ReasonableD E lim c cl) : ReasonableD E' lim c' (cl.ren σ) := by
  cases cl with
  | source src => exact sourced_ren hR hA hE' hc (hG src (by simp [CallD.names])) h
  | makefile t deps =>
    have ht := hG t (by simp [CallD.names])
    obtain ⟨k1, k2⟩ := globs_ren hR (l := deps) fun d hd => hG d (by simp [CallD.names, hd])
    obtain ⟨h1, h2⟩ := h
    refine ⟨fitsD_ren hR hA hE' hc ht h1, ?_⟩
    rw [k1]
    intro r' hr'
    obtain ⟨r, hr, rfl⟩ := List.mem_map.1 hr'
    exact depD_ren hR hA hE' hc ht (k2 r hr) (h2 r hr)
  | copy t src adddeps =>
    obtain ⟨s1, s2⟩ := hR.home src (hG src (by simp [CallD.names]))
    obtain ⟨t1, t2⟩ := hR.home t (hG t (by simp [CallD.names]))
    obtain ⟨k1, k2⟩ := globs_ren hR (l := E.home src :: adddeps) (by
      intro d hd
      rcases List.mem_cons.1 hd with rfl | hd
      · exact s1
      · exact hG d (by simp [CallD.names, hd]))
    obtain ⟨h1, h2⟩ := h
    simp only [CallD.ren, ReasonableD]
    rw [s2, t2]
    refine ⟨sourced_ren hR hA hE' hc s1 h1, ?_⟩
    intro d' hd'
    have hs := sourceG_ren hR (lim := lim) hc s1
    rw [hd'] at hs
    rcases hd : sourceG E lim c (E.home src) [] with e | d
    · rw [hd] at hs; exact hs.elim
    · rw [hd] at hs
      have hs : Copied σ G d d' := hs
      obtain ⟨h3, h4⟩ := h2 d hd
      refine ⟨fitsD_ren hR hA hE' hs t1 h3, ?_⟩
      rw [← List.map_cons, k1]
      intro r' hr'
      obtain ⟨r, hr, rfl⟩ := List.mem_map.1 hr'
      exact depD_ren hR hA hE' hs t1 (k2 r hr) (h4 r hr)
  | fileset t targets deps =>
    have ht := hG t (by simp [CallD.names])
    obtain ⟨k1, k2⟩ := globs_ren hR (l := deps ++ targets) fun d hd => hG d (by
      simp only [CallD.names, List.mem_cons, List.mem_append] at hd ⊢; tauto)
    obtain ⟨h1, h2⟩ := h
    simp only [CallD.ren, ReasonableD]
    refine ⟨fun o ho => h1 o ((hc.resolves hR ht).1 ho), ?_⟩
    rw [← List.map_append, k1]
    intro r' hr'
    obtain ⟨r, hr, rfl⟩ := List.mem_map.1 hr'
    obtain ⟨h3, h4⟩ := h2 r hr
    have hr := k2 r hr
    refine ⟨canon_ne_ren hR ht hr h3, ?_⟩
    rcases h4 with h4 | ⟨h4, h5, h6⟩
    · exact Or.inl (leads_ren hR hc hr h4)
    · refine Or.inr ⟨by rw [hR.ex r hr]; exact h4, ?_, ?_⟩
      · intro o ho
        rw [hc.kinds]
        exact h5 o ((hc.resolves hR hr).1 ho)
      · rw [(hR.canon r hr).2]
        exact notdir_ren hA hc (hR.canon r hr).1 h6
  | target t deps upd act =>
    have ht := hG t (by simp [CallD.names])
    obtain ⟨k1, k2⟩ := globs_ren hR (l := deps) fun d hd => hG d (by simp [CallD.names, hd])
    obtain ⟨h1, h2⟩ := h
    simp only [CallD.ren, ReasonableD]
    refine ⟨fun o ho => h1 o ((hc.resolves hR ht).1 ho), ?_⟩
    rw [k1]
    intro r' hr'
    obtain ⟨r, hr, rfl⟩ := List.mem_map.1 hr'
    obtain ⟨h3, h4⟩ := h2 r hr
    have hr := k2 r hr
    refine ⟨canon_ne_ren hR ht hr h3, ?_⟩
    rcases h4 with ⟨o, h4⟩ | ⟨h4, h6⟩
    · exact Or.inl ⟨o, (hc.resolves hR hr).2 h4⟩
    · refine Or.inr ⟨by rw [hR.ex r hr]; exact h4, ?_⟩
      rw [(hR.canon r hr).2]
      exact notdir_ren hA hc (hR.canon r hr).1 h6
  | makedir dir =>
    have hd := hG dir (by simp [CallD.names])
    obtain ⟨g1, g2⟩ := hR.canon dir hd
    have h : FitsDir E c dir := h
    show FitsDir E' c' (σ dir)
    refine ⟨noStar_ren hR hE' hd h.nostar, ?_, ?_, ?_, ?_, ?_⟩
    · rw [g2, hR.ex _ g1]; exact h.missing
    · rw [g2, hR.exDir _ g1, hR.exDir _ hd]; exact h.parent
    · rw [g2]; exact clear_ren hR hA hE' hc g1 h.clear
    · intro a ha hi
      rw [hc.kinds] at ha
      obtain ⟨k1, k2⟩ := hc.known (o := a) (by rcases ha with e | e <;> rw [e] <;> simp)
      rw [k2, g2] at hi
      exact h.nofile a ha (hA _ _ g1 k1 hi)
    · intro o ho
      rw [g2, hc.resolves hR g1] at ho
      rw [hc.kinds]
      exact h.taken o ho

/-- Calls that are reasonable here are reasonable there. -/
theorem reasonableSeq_ren (hR : Renames σ G E E') (hA : KeepsAbove σ G) (hE' : E'.Sane) {cs : List CallD}
    (hG : ∀ cl ∈ cs, ∀ n ∈ cl.names, G n) {w w' : World} (hc : Copied σ G w.dflt w'.dflt) (h : ReasonableSeq E lim w cs) :
    ReasonableSeq E' lim w' (cs.map (CallD.ren σ)) := by
  intro pre' cl' post' v' he hv'
  obtain ⟨pre, rest, rfl, rfl, h2⟩ := List.map_eq_append_iff.1 he
  obtain ⟨cl, post, rfl, rfl, rfl⟩ := List.map_eq_cons_iff.1 h2
  have h1 := callsD_ren hR (lim := lim) (cs := pre) (fun cl hcl => hG cl (by simp [hcl])) hc
  rw [hv'] at h1
  rcases hv : pre.foldlM (callD E lim) w with e | v
  · rw [hv] at h1; exact h1.elim
  · rw [hv] at h1
    have h1 : Copied σ G v.dflt v'.dflt := h1
    exact reasonableD_ren hR hA hE' h1 (hG cl (by simp)) (h pre cl post v rfl hv)

/-- **C152** for whole projects of files: a project described by reasonable calls (as in C88), and the same calls in another place, with
names replaced.  The calls succeed there, too.  The files there are copies of those here.  If both are built successfully, the same
commands are run, and the files have the same contents afterwards. -/
theorem C152_project {α : Type} (hR : Renames σ G E E') (hA : KeepsAbove σ G) (hE : E.Sane) (hE' : E'.Sane) (hl : ∀ n ∈ licantNames, G n ∧ σ n = n)
    {cs : List CallD} (hG : ∀ cl ∈ cs, ∀ n ∈ cl.names, G n) {own own' : MReg} {w : World}
    (hrs : ReasonableSeq E lim ⟨licantReg, own⟩ cs) (hw : cs.foldlM (callD E lim) ⟨licantReg, own⟩ = .ok w) :
    ∃ w', (cs.map (CallD.ren σ)).foldlM (callD E' lim) ⟨licantReg, own'⟩ = .ok w' ∧
    ∀ {P P' : Proj α} (_ : P.reg = w.dflt.reg) (_ : P.kind = w.dflt.kind) (_ : P'.reg = w'.dflt.reg) (_ : P'.kind = w'.dflt.kind)
    (_ : ∀ p q, q ∈ P.parents p → IsAnc q p) (_ : ∀ p q, q ∈ P'.parents p → IsAnc q p)
    (_ : ∀ o < w.dflt.reg.next, P'.force o = P.force o ∧ P'.upd o = P.upd o ∧ ∀ f, P'.cmd o f = P.cmd o fun p => f (σ p))
    {name : String} (_ : G name) {root root' : Nat} (_ : Resolves E.canon P.reg name root)
    (_ : Resolves E'.canon P'.reg (σ name) root') (_ : P.kind root ≠ .other) {fs fs' : FS α}
    (_ : ∀ o, Closure E.canon P.reg root o → IsPath P o → fs' (σ (P.path o)) = fs (P.path o))
    {cache cache' : FileCache} (_ : Accurate P fs cache) (_ : Accurate P' fs' cache')
    {B : Invocation P E.canon root fs cache} {B' : Invocation P' E'.canon root' fs' cache'} {clock clock' : Nat}
    {tr tr' : List (Ev α)} {s s' : St α} (_ : B.Run clock tr s) (_ : B'.Run clock' tr' s')
    (_ : s.Succeeded) (_ : s'.Succeeded),
    (∀ p, (∃ o ∈ B.commands tr, σ (P.path o) = p) ↔ (∃ o ∈ B'.commands tr', P'.path o = p)) ∧
    (Functional P E.canon → Functional P' E'.canon → Faithful B clock tr → Faithful B' clock' tr' → Productive B tr → Productive B' tr' →
      ∀ o, Closure E.canon P.reg root o → P.kind o = .file ∨ P.kind o = .source →
        contents s'.fs (σ (P.path o)) = contents s.fs (P.path o)) := by
  have hcop := callsD_ren hR (lim := lim) hG (w := ⟨licantReg, own⟩) (w' := ⟨licantReg, own'⟩) (copied_licantReg hl)
  have hrs' := reasonableSeq_ren hR hA hE' hG (w := ⟨licantReg, own⟩) (w' := ⟨licantReg, own'⟩) (copied_licantReg hl) hrs
  rw [hw] at hcop
  rcases hw' : (cs.map (CallD.ren σ)).foldlM (callD E' lim) ⟨licantReg, own'⟩ with e | w'
  · rw [hw'] at hcop; exact hcop.elim
  refine ⟨w', rfl, ?_⟩
  intro P P' hP hk hP' hk' hpar hpar' hc name hname root root' hroot hroot' hko fs fs' hfs cache cache' hacc hacc' B B' clock clock'
    tr tr' s s' hx hx' hs hs'
  exact C152_partial (C88_wellformed hE (hrs.described (.new own) hw) P hP hk hpar).1
    (C88_wellformed hE' (hrs'.described (.new own') hw') P' hP' hk' hpar').1
    (((C152_described hR hl hG).2 w w' hw hw').2 P P' hP hk hP' hk' hc name hname) hroot hroot' hko hfs hacc hacc' hx hx' hs hs'

end Licant.Make
