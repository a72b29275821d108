import Verif.Proof.Steady
import Verif.Proof.OwnRun
/-!
# Calls one after the other while others read
-/

namespace Hyperbee

/-! ## Reading calls, from laws -/

section

variable {S : (α : Type) → Prog α → Prog α → Names → (Names → α → α → Prop) → Prop}

theorem Laws.exec (L : Laws S) (hver : ∀ Γ, S _ Prog.version Prog.version Γ EqR)
    (hroot : ∀ Γ, S _ (Prog.getRoot false) (Prog.getRoot false) Γ RootR)
    (hfuel : ∀ Γ, S _ Prog.descentFuel Prog.descentFuel Γ EqR)
    (hreply : ∀ {α : Type} {p p' : Prog α} {Γ : Names} {f : α → Reply}, S α p p' Γ EqR →
      S _ (Prog.replyOf f p) (Prog.replyOf f p') Γ EqR) {c : Cmd} (hc : c.looks = true) (Γ : Names) :
    S _ (Prog.exec c) (Prog.exec c) Γ EqR := by
  cases c with
  | version => exact hreply (hver Γ)
  | get k =>
    refine hreply ?_
    unfold Prog.get
    refine L.bind (hroot Γ) fun Γ1 r r' h1 hr => ?_
    cases hr with
    | none => exact L.eq
    | some ha =>
      refine L.bind (R := FoundR) ?_ ?_
      · unfold Prog.nearestNode
        refine L.bind (hfuel Γ1) fun Γ2 f f' h2 hf => ?_
        cases hf
        exact L.nearestLoop _ _ _ _ _ _ _ (h2 _ _ ha) .nil
      rintro Γ2 ⟨m, p⟩ ⟨m', p'⟩ h2 ⟨hm, hp⟩
      cases hm
      cases m with
      | none => exact L.eq
      | some q =>
        refine L.bind (L.head hp) ?_
        rintro Γ3 ⟨a, j⟩ ⟨i, j'⟩ h3 ⟨ha3, hj⟩
        cases hj
        refine L.bind (L.getKeyValue ha3 _) fun Γ4 kv kv' h4 hkv => ?_
        cases hkv
        exact L.eq
  | traverse b rs =>
    refine hreply ?_
    unfold Prog.traverseSession
    cases b.build with
    | error e => exact L.throw
    | ok conf =>
      dsimp only
      unfold Prog.collect
      refine L.bind (R := CollectedR) (L.bind (R := fun Γ => List.Forall₂ (FrameR Γ)) ?_
        fun Γ1 fs fs' h1 hf => L.drive rs fs fs' Γ1 hf) ?_
      · unfold Prog.traverse
        refine L.bind (hroot Γ) fun Γ1 r r' h1 hr => ?_
        cases hr with
        | none => exact L.throw
        | some ha => exact L.pure fun Γ2 h2 => .cons (frame_new (h2 _ _ ha) _) .nil
      rintro Γ2 ⟨xs, fin⟩ ⟨xs', fin'⟩ h2 ⟨hxs, hfin⟩
      cases hxs
      cases hfin with
      | none => exact L.eq
      | some hh => exact L.eq
  | _ => cases hc

end

/-! ## Insertions -/

/-- The end is the one the program has alone. -/
def Post (s0 : St) (R : Names → α → α → Prop) (p : Prog α) : St → Names → Except Err α → Prop :=
  fun sB' Γ' r => sB' = (p.run s0).2 ∧ RR R Γ' r (p.run s0).1

variable {s0 : St}

theorem Play.bindTwin {p : Prog α} {f : α → Prog β} {Γ Λ : Names} {R : Names → α → α → Prop} {S : Names → β → β → Prop}
    (h : Play p s0 Γ Λ (Post s0 R p)) (hf : ∀ Γ' a i, R Γ' a i → Twin (Duo 0 false) (f a) (f i) Γ' S) :
    Play (p >>= f) s0 Γ Λ (Post s0 S (p >>= f)) := by
  have hrun : (p >>= f).run s0 = (p.run >>= fun a => (f a).run) s0 := by rw [Prog.run_bind]
  rw [bind_run] at hrun
  rcases hp : p.run s0 with ⟨r, s1⟩
  rw [hp] at hrun
  unfold Post at h ⊢
  rw [hp] at h
  cases r with
  | ok i =>
    dsimp only at hrun
    refine h.bind (fun sB' Γ' Λ' a hq => ?_) (fun sB' Γ' e hq => hq.2.elim)
    obtain ⟨rfl, hq⟩ := hq
    rw [hrun]
    exact Duet.play (hf Γ' a i hq _ Λ')
  | error e =>
    dsimp only at hrun
    refine h.bind (fun sB' Γ' Λ' a hq => hq.2.elim) (fun sB' Γ' e' hq => ?_)
    rw [hrun]
    exact hq

theorem Play.replyTwin {p : Prog α} {f : α → Reply} {Γ Λ : Names} (h : Play p s0 Γ Λ (Post s0 EqR p)) :
    Play (Prog.replyOf f p) s0 Γ Λ (Post s0 EqR (Prog.replyOf f p)) := by
  have hrun : (Prog.replyOf f p).run s0 = ((match (p.run s0).1 with
      | .ok a => .ok (f a)
      | .error e => .ok (.error e) : Except Err Reply), (p.run s0).2) := by
    clear h
    induction p generalizing s0 with
    | pure a => rfl
    | throw e => rfl
    | step x k ih => exact ih _
  unfold Post at h ⊢
  rw [hrun]
  generalize (p.run s0).1 = r' at h ⊢
  generalize (p.run s0).2 = s' at h ⊢
  refine h.replyOf (fun sB' Γ' a hq => ?_) (fun sB' Γ' e hq => ?_)
  · obtain ⟨e1, h2⟩ := hq
    cases r' with
    | ok i => exact ⟨e1, congrArg f h2⟩
    | error e => exact h2.elim
  · obtain ⟨e1, h2⟩ := hq
    cases r' with
    | ok i => exact h2.elim
    | error e' => exact ⟨e1, congrArg Reply.error h2⟩

theorem duet_getRoot {base : Nat} {strict : Bool} {sB : St} (hl : sB.core.length < 2) (Γ Λ : Names) :
    Duet (Duo base strict) (Prog.getRoot true) sB Γ Λ fun sB' _ r =>
      sB' = ((Prog.getRoot true).run sB).2 ∧ r = ((Prog.getRoot true).run sB).1 ∧ ∀ o, r = .ok o → o = none := by
  have hrun : (Prog.getRoot true).run sB = ((if sB.core.length = 0 then Prog.ensureHeader >>= fun _ => Pure.pure none
      else Pure.pure none : Prog (Option Nat)).run sB) := by
    unfold Prog.getRoot
    rw [Prog.run_bind, show Prog.version.run = version from rfl, bind_ok (version_run sB), if_pos (by omega)]
    by_cases h0 : sB.core.length = 0
    · rw [if_pos h0, if_pos ⟨h0, rfl⟩]
    · rw [if_neg h0, if_neg (fun h => h0 h.1)]
  rw [hrun]
  unfold Prog.getRoot
  refine Duet.bind (twin_version sB Λ) (fun sB' Γ' Λ' v hle hq => ?_) (fun sB' Γ' e hle hq => hq.2.elim)
  obtain ⟨hs, hv⟩ := hq
  have hs : sB' = sB := hs
  have hv : v = sB.core.length := hv
  subst hs hv
  rw [if_pos (by omega)]
  have key : ∀ {p : Prog (Option Nat)}, Twin (Duo base strict) p p Γ' (fun _ a i => a = none ∧ i = none) →
      Duet (Duo base strict) p sB' Γ' Λ' fun sB'' _ r => sB'' = (p.run sB').2 ∧ r = (p.run sB').1 ∧ ∀ o, r = .ok o → o = none := by
    intro p h
    refine Duet.imp (h sB' Λ') fun sB'' Γ2 r _ hq => ⟨hq.1, ?_, ?_⟩
    · have h2 := hq.2
      revert h2
      generalize (p.run sB').1 = r'
      cases r <;> cases r' <;> intro h2
      · exact congrArg _ h2
      · exact h2.elim
      · exact h2.elim
      · obtain ⟨h3, h4⟩ := h2
        rw [h3, h4]
    · rintro o rfl
      have h2 := hq.2
      revert h2
      generalize (p.run sB').1 = r'
      cases r' <;> intro h2
      · exact h2.elim
      · exact h2.1
  by_cases h0 : sB'.core.length = 0
  · rw [if_pos h0, if_pos ⟨h0, rfl⟩]
    refine key ?_
    exact Twin.bind (twin_catchExists (twin_createHeader none)) fun Γ2 _ _ _ _ => Twin.pure ⟨rfl, rfl⟩
  · rw [if_neg h0, if_neg (fun h => h0 h.1)]
    exact key (Twin.pure ⟨rfl, rfl⟩)

theorem duet_putPrepare {base : Nat} {strict : Bool} {sB : St} (hl : sB.core.length < 2) (k : Bytes) (v : Option Bytes)
    (cas : Option KeyValueData → KeyValueData → Bool) (Γ Λ : Names) :
    Duet (Duo base strict) (Prog.putPrepare k v cas) sB Γ Λ (Post sB PreparedR (Prog.putPrepare k v cas)) := by
  unfold Post Prog.putPrepare
  rw [Prog.run_bind, bind_run]
  have h := duet_getRoot (base := base) (strict := strict) hl Γ Λ
  rcases hr : (Prog.getRoot true).run sB with ⟨r, s1⟩
  rw [hr] at h
  refine Duet.bind h (fun sB' Γ' Λ' o _ hq => ?_) (fun sB' Γ' e _ hq => ?_)
  · obtain ⟨rfl, h2, h3⟩ := hq
    have := h3 o rfl
    subst this
    cases h2
    dsimp only
    exact (Twin.bind twin_version fun Γ2 q q' _ hq => by
      cases hq
      exact twin_putRest k v cas q none .nil none : Twin (Duo base strict) _ _ Γ' PreparedR) sB' Λ'
  · obtain ⟨rfl, h2, _⟩ := hq
    cases h2
    exact ⟨rfl, rfl⟩

theorem valid_start {R : Child → Prop} (hc : Coh s0 R) (Γ Λ : Names) : Valid 0 Γ R s0.core (fun _ => none) Λ s0 :=
  ⟨rfl, hc, fun _ _ h => by cases h⟩

/-- An insertion into a tree, up to the writing of its block. -/
theorem play_putPrepare {H : Nat} {t : T} (ht : TreeAt s0.core H t) (hw : SWF s0) (hc : Coh s0 (· ∈ t.refs)) (k : Bytes)
    (v : Option Bytes) (cas : Option KeyValueData → KeyValueData → Bool) (Γ Λ : Names) :
    Play (Prog.putPrepare k v cas) s0 Γ Λ (Post s0 PreparedR (Prog.putPrepare k v cas)) := by
  have tame := ht.rep.tame ht.dfd
  have hroot : (⟨s0.core.length - 1, 0⟩ : Child) ∈ t.refs := by rw [← ht.ref]; exact T.ref_mem_refs t
  -- alone
  obtain ⟨rB, s1, g1, e1, a1⟩ := getRoot_run ht hw true
  obtain ⟨m, a', i, fs, n, s2, g2, e2, hf⟩ := nearestNode_run (.finite k) (s := s1) (a := rB)
    (by rw [e1.core]; exact ht) e1.wf (e1.coh hw hc) a1
  have e12 := e1.trans e2
  have ht2 : TreeAt s2.core H t := by rw [e12.core]; exact ht
  have hrefs := plug_path (fs := fs) (n := n) (by rw [hf.plug]; exact ht.nodup)
  have haddrs : List.Forall₂ (fun r (x : Nat × Nat) => addrOf s2 r = some x.1) (n.ref :: fs.map (·.ref))
      ((a', i) :: fs.map Fr.step) := by
    refine .cons hf.addr ?_
    have := hf.frs
    clear hrefs g2 hf
    induction fs with
    | nil => exact .nil
    | cons f fs ih => exact .cons (this f (by simp)).2 (ih fun g hg => this g (by simp [hg]))
  have hrun : (Prog.putPrepare k v cas).run s0 = (match m with
      | some _ => Prog.getKeyValue a' i >>= fun kv => putRest k v cas s0.core.length m ((a', i) :: fs.map Fr.step) (some kv)
      | none => putRest k v cas s0.core.length m ((a', i) :: fs.map Fr.step) none).run s2 := by
    unfold Prog.putPrepare
    rw [Prog.run_bind, show (Prog.getRoot true).run = getRoot true from does_getRoot true, bind_ok g1, Prog.run_bind,
      show Prog.version.run = version from rfl, bind_ok (version_run s1), e1.core]
    dsimp only
    rw [Prog.run_bind, show (Prog.nearestNode rB (.finite k)).run = nearestNode rB (.finite k) from does_nearestNode _ _, bind_ok g2]
    cases m with
    | none => rfl
    | some q => rfl
  -- from the first change on
  have leaf : ∀ (N Λ : Names) (pA : NodePath) (o : Option KeyValueData) (s3 : St), PathR N pA ((a', i) :: fs.map Fr.step) →
      Valid 0 Γ (· ∈ t.refs) s0.core N Λ s3 → Ext s2 s3 →
      (Prog.putPrepare k v cas).run s0 = (putRest k v cas s0.core.length m ((a', i) :: fs.map Fr.step) o).run s3 →
      Play (putRest k v cas s0.core.length m pA o) s3 Γ Λ (Post s0 PreparedR (Prog.putPrepare k v cas)) := by
    intro N Λ pA o s3 hp hv e3 hr
    refine Play.switch fun Λ' sA hl hd => ?_
    have haddrs3 := haddrs.imp fun r x h => e3.addr h
    have hin : ∀ r ∈ n.ref :: fs.map (·.ref), r ∈ t.refs := by
      intro r hr
      rw [← hf.plug]
      have h1 := pathRefs_count r fs n
      rw [← List.count_pos_iff]
      refine Nat.lt_of_lt_of_le ?_ h1
      rw [List.count_pos_iff]
      simp only [List.mem_append]
      rcases List.mem_cons.mp hr with rfl | hr
      · exact .inl (T.ref_mem_refs n)
      · exact .inr hr
    obtain ⟨Γ2, Λ2, l2, d2, p2, _⟩ := hd.adoptPath hv.coh hrefs hin (pA := pA) (pB := (a', i) :: fs.map Fr.step) (by
        have hp' := hp
        unfold PathR at hp'
        rw [List.forall₂_iff_get] at hp' haddrs3 ⊢
        refine ⟨haddrs3.1.trans hp'.1.symm, fun j h1 h2 => ?_⟩
        have hj := hp'.2 j h2 (by rw [← hp'.1]; exact h2)
        have hj' := haddrs3.2 j h1 (by rw [← hp'.1]; exact h2)
        obtain ⟨r, _, q2, q3⟩ := hv.name _ _ hj.1
        have := hd.wf.inj _ _ _ q3 hj'
        rw [← this]
        exact q2.mono hl) haddrs3 (by
        have hp' := hp
        unfold PathR at hp'
        generalize (a', i) :: fs.map Fr.step = pB at hp'
        clear hp
        induction hp' with
        | nil => rfl
        | cons h _ ih => rw [List.map_cons, List.map_cons, ih, h.2])
    refine ⟨Γ2, Λ2, l2, d2, Duet.play ?_⟩
    have := twin_putRest (base := 0) (strict := false) k v cas s0.core.length m p2 o s3 Λ2
    unfold Post
    rw [hr]
    exact this
  unfold Prog.putPrepare
  refine Play.browse (browse_root tame ht.two hroot true s0 Λ) (valid_start hc Γ Λ) (fun sB1 N1 Λ1 r hn1 hv1 hr => ?_)
    (fun sB1 N1 Λ1 e _ _ h => ?_)
  rotate_left
  · rw [show (Prog.getRoot true).run = getRoot true from does_getRoot true, g1] at h
    exact h.2.elim
  rw [show (Prog.getRoot true).run = getRoot true from does_getRoot true, g1] at hr
  obtain ⟨rfl, hr⟩ := hr
  change RootR N1 r (some rB) at hr
  cases hr with
  | some hr =>
  rename_i ra
  refine Play.browse (browse_version sB1 Λ1) hv1 (fun sB2 N2 Λ2 q hn2 hv2 hq => ?_) (fun sB2 N2 Λ2 e _ _ h => h.2.elim)
  obtain ⟨h1, h2, h3⟩ := hq
  have h1 : sB2 = sB1 := h1
  subst h1
  subst h3
  dsimp only
  refine Play.browse (browse_nearestNode tame (hn2 _ _ hr) (.finite k) sB2 Λ2) hv2 (fun sB3 N3 Λ3 x hn3 hv3 hx => ?_)
    (fun sB3 N3 Λ3 e _ _ h => ?_)
  rotate_left
  · rw [show (Prog.nearestNode rB (.finite k)).run = nearestNode rB (.finite k) from does_nearestNode _ _, g2] at h
    exact h.2.elim
  rw [show (Prog.nearestNode rB (.finite k)).run = nearestNode rB (.finite k) from does_nearestNode _ _, g2] at hx
  obtain ⟨rfl, hx⟩ := hx
  obtain ⟨mA, pA⟩ := x
  obtain ⟨hmA, hpA⟩ : mA = m ∧ PathR N3 pA ((a', i) :: fs.map Fr.step) := hx
  subst hmA
  dsimp only
  cases hm : mA with
  | none =>
    subst hm
    exact leaf N3 Λ3 pA none sB3 hpA hv3 (Ext.refl e2.wf) hrun
  | some q =>
    subst hm
    -- the old pair
    obtain ⟨ka, kb, pre, post, hk1, hk2, hloc, hfl⟩ := hf.loc ht2
    obtain ⟨hn, _, _⟩ := hf.node ht2.rep (e12.coh hw hc)
    obtain ⟨hq1, _⟩ := hf.hit q rfl
    obtain ⟨b, hb⟩ := ht2.dfd q (by rw [hloc.eq]; simp)
    obtain ⟨s3, g3, e3⟩ := getKeyValue_run e2.wf hn (i := i) (q := q) hq1 hb
    obtain ⟨ah, pt, hpA', hah⟩ : ∃ ah pt, pA = (ah, i) :: pt ∧ N3 ah = some a' := by
      cases hpA with
      | cons h t => rename_i y ps; obtain ⟨j, i'⟩ := y; obtain ⟨h1, h2⟩ := h; cases h2; exact ⟨j, ps, rfl, h1⟩
    rw [hpA']
    show Play (Prog.getKeyValue ah i >>= fun kv => putRest k v cas s0.core.length (some q) ((ah, i) :: pt) (some kv)) _ _ _ _
    refine Play.browse (browse_getKeyValue tame hah i sB3 Λ3) hv3 (fun sB4 N4 Λ4 kv hn4 hv4 hkv => ?_)
      (fun sB4 N4 Λ4 e _ _ h => ?_)
    rotate_left
    · rw [show (Prog.getKeyValue a' i).run = getKeyValue a' i from does_getKeyValue _ _, g3] at h
      exact h.2.elim
    rw [show (Prog.getKeyValue a' i).run = getKeyValue a' i from does_getKeyValue _ _, g3] at hkv
    obtain ⟨rfl, hkv⟩ := hkv
    cases hkv
    refine leaf N4 Λ4 _ _ sB4 ?_ hv4 e3 ?_
    · rw [← hpA']; exact PathR.mono hn4 hpA
    · rw [hrun]
      dsimp only
      rw [Prog.run_bind, show (Prog.getKeyValue a' i).run = getKeyValue a' i from does_getKeyValue _ _, bind_ok g3]

/-! ## Whole calls -/

/-- Writes that never ask for a node twice. -/
def Cmd.inserts : Cmd → Bool
  | .put .. => true
  | .putCas .. => true
  | .createHeader _ => true
  | _ => false

theorem play_exec {d : Db} (hs : Holds s0 d) {c : Cmd} (hc : c.inserts = true ∨ c.looks = true) (Γ Λ : Names) :
    Play (Prog.exec c) s0 Γ Λ (Post s0 EqR (Prog.exec c)) := by
  rcases hc with hc | hc
  · have hprep : ∀ k v cas, Play (Prog.putPrepare k v cas) s0 Γ Λ (Post s0 PreparedR (Prog.putPrepare k v cas)) := by
      intro k v cas
      rcases hs.store with hb | ⟨H, t, h1, h2, _⟩
      · exact Duet.play (duet_putPrepare (by have := hb.1; omega) k v cas Γ Λ)
      · exact play_putPrepare h1 hs.wf h2 k v cas Γ Λ
    have hcas : ∀ k v cas, Play (Prog.putCompareAndSwap k v cas) s0 Γ Λ (Post s0 EqR (Prog.putCompareAndSwap k v cas)) := by
      intro k v cas
      exact (hprep k v cas).bindTwin fun Γ' a i h => twin_commit h
    cases c with
    | put k v =>
      refine Play.replyTwin ?_
      refine (hcas k v _).bindTwin fun Γ' r r' h => ?_
      cases h
      obtain ⟨o, n⟩ := r
      dsimp only
      refine Twin.bind Twin.orPanic_eq fun Γ2 n n' h2 hn => ?_
      cases hn
      exact Twin.eq
    | putCas k v cas => exact Play.replyTwin (hcas k v cas)
    | createHeader m => exact Duet.play (twin_replyOf (twin_createHeader m) s0 Λ)
    | _ => cases hc
  · obtain ⟨R, h1, h2, h3⟩ : ∃ R, Tame s0.core R ∧ Coh s0 R ∧ (2 ≤ s0.core.length → R ⟨s0.core.length - 1, 0⟩) := by
      rcases hs.store with hb | ⟨H, t, h1, h2, _⟩
      · exact ⟨fun _ => False, fun _ h => h.elim, fun _ h => h.elim, fun h => by have := hb.1; omega⟩
      · exact ⟨(· ∈ t.refs), h1.rep.tame h1.dfd, h2, fun _ => by rw [← h1.ref]; exact T.ref_mem_refs t⟩
    have := (browseLaws (base := 0) (Γ := Γ) h1).exec (fun N => browse_version.conseq fun _ _ _ h => h.1)
      (fun N => browse_getRoot h1 h3) (fun N => browse_descentFuel) (fun h => twin_replyOf h) hc (fun _ => none)
    exact Play.ofBrowse (this s0 Λ) (valid_start h2 Γ Λ) fun sB' N' r h => ⟨h.1, by
      have h2 := h.2
      revert h2
      generalize ((Prog.exec c).run s0).1 = r'
      cases r <;> cases r' <;> exact fun h => h⟩

theorem run_history : ∀ (cs : List Cmd), (∀ c ∈ cs, c ≠ .reopen) → ∀ s, (Prog.history cs).run s = (.ok (runReplies cs s), runSt cs s) := by
  intro cs
  induction cs with
  | nil => exact fun _ s => rfl
  | cons c cs ih =>
    intro h s
    show (Prog.exec c >>= fun r => Prog.history cs >>= fun rs => Pure.pure (r :: rs)).run s = _
    rw [Prog.run_bind, bind_ok (run_exec c (h c (by simp)) s), Prog.run_bind, bind_ok (ih (fun c hc => h c (by simp [hc])) _)]
    rfl

theorem play_history : ∀ (cs : List Cmd), (∀ c ∈ cs, c.inserts = true ∨ c.looks = true) → ∀ {s : St} {d : Db}, Holds s d →
    ∀ Γ Λ, Play (Prog.history cs) s Γ Λ (fun sB' _ r => sB' = runSt cs s ∧ r = .ok (runReplies cs s)) := by
  intro cs
  induction cs with
  | nil => exact fun _ s d _ Γ Λ Λ' sA _ hd => ⟨Γ, Λ', .refl _, hd, rfl, rfl⟩
  | cons c cs ih =>
    intro h s d hs Γ Λ
    show Play (Prog.exec c >>= fun r => Prog.history cs >>= fun rs => Pure.pure (r :: rs)) s Γ Λ _
    have hcr : c ≠ .reopen := by
      rintro rfl
      rcases h _ (List.mem_cons_self ..) with h | h <;> cases h
    have h1 := play_exec hs (h c (by simp)) Γ Λ
    unfold Post at h1
    rw [run_exec c hcr] at h1
    refine h1.bind (fun sB' Γ' Λ' r hq => ?_) (fun sB' Γ' e hq => hq.2.elim)
    obtain ⟨rfl, hr⟩ := hq
    have hr : r = (exec c s).1 := hr
    subst hr
    refine (ih (fun c hc => h c (by simp [hc])) (exec_refines hs c).2 Γ' Λ').bind (fun sB' Γ2 Λ2 rs hq => ?_)
      (fun sB' Γ2 e hq => by cases hq.2)
    obtain ⟨rfl, hr⟩ := hq
    cases hr
    exact fun Λ' sA _ hd => ⟨Γ2, Λ', .refl _, hd, rfl, rfl⟩

theorem holds_run : ∀ (cs : List Cmd) {s : St} {d : Db}, Holds s d → ∃ d', Holds (runSt cs s) d' := by
  intro cs
  induction cs with
  | nil => exact fun h => ⟨_, h⟩
  | cons c cs ih => exact fun h => ih (exec_refines h c).2

/-- Insertions and reads one after the other, while others read. -/
theorem among_inserts {w : Nat} {s : St} {d : Db} (hs : Holds s d) {cs : List Cmd}
    (hc : ∀ c ∈ cs, c.inserts = true ∨ c.looks = true) (sched : List Nat) (ps : List (Prog (List Reply)))
    (hw : ps[w]? = some (Prog.history cs)) (hps : ∀ j p, j ≠ w → ps[j]? = some p → Loader _ p) (rs : List Reply)
    (hres : (Prog.interleave sched ps s).1[w]? = some (.pure rs)) :
    rs = runReplies cs s ∧ (Prog.interleave sched ps s).2.core = (runSt cs s).core ∧
      ∃ d', Holds (Prog.interleave sched ps s).2 d' := by
  obtain ⟨sB', Γ', Λ', ⟨rfl, h2⟩, h3⟩ := among_play sched ps s _ _ s (Prog.history cs) hw (duo_start hs.wf 0 false)
    (play_history cs hc hs _ _) (fun j p hj hp => (hps j p hj hp).safe _ _ _ _) rs hres
  cases h2
  obtain ⟨d', hd'⟩ := holds_run cs hs
  exact ⟨rfl, h3.core, d', h3.holds hd'⟩

/-! ## Deletions too, if nothing is put into the cache late -/

theorem twin_execAny {Γ : Names} {c : Cmd} (hr : c ≠ .reopen) : Twin (Duo 0 true) (Prog.exec c) (Prog.exec c) Γ EqR := by
  cases hc : c.looks with
  | false => exact twin_exec hc hr
  | true =>
    exact (twinLaws (base := 0)).exec (fun _ => twin_version) (fun _ => twin_getRoot false) (fun _ => twin_descentFuel)
      (fun h => twin_replyOf h) hc Γ

theorem twin_history : ∀ (cs : List Cmd), (∀ c ∈ cs, c ≠ .reopen) → ∀ (Γ : Names),
    Twin (Duo 0 true) (Prog.history cs) (Prog.history cs) Γ EqR := by
  intro cs
  induction cs with
  | nil => exact fun _ Γ => Twin.eq
  | cons c cs ih =>
    intro h Γ
    show Twin (Duo 0 true) (Prog.exec c >>= fun r => Prog.history cs >>= fun rs => Pure.pure (r :: rs)) _ Γ EqR
    refine Twin.bind (twin_execAny (h c (by simp))) fun Γ1 r r' h1 hr => ?_
    cases hr
    refine Twin.bind (ih (fun c hc => h c (by simp [hc])) Γ1) fun Γ2 rs rs' h2 hrs => ?_
    cases hrs
    exact Twin.eq

/-- Any calls one after the other, while others read and put nothing into the cache late. -/
theorem among_calls {w : Nat} {s : St} {d : Db} (hs : Holds s d) {cs : List Cmd} (hc : ∀ c ∈ cs, c ≠ .reopen)
    (sched : List Nat) (ps : List (Prog (List Reply))) (hw : ps[w]? = some (Prog.history cs))
    (hps : ∀ j p, j ≠ w → ps[j]? = some p → Loader _ p) (hov : Prog.overtaken w sched ps s = false) (rs : List Reply)
    (hres : (Prog.interleave sched ps s).1[w]? = some (.pure rs)) :
    rs = runReplies cs s ∧ (Prog.interleave sched ps s).2.core = (runSt cs s).core ∧
      ∃ d', Holds (Prog.interleave sched ps s).2 d' := by
  obtain ⟨sB', Γ', Λ', ⟨h1, h2⟩, h3⟩ := among_run (Open := fun _ => True) sched ps s _ _ s (Prog.history cs) hw
    (duo_start hs.wf 0 true) (fun _ _ => trivial) (twin_history cs hc _ s _)
    (fun j p hj hp => (hps j p hj hp).safe _ _ _ _) (fun _ => hov) rs hres
  rw [run_history cs hc] at h1 h2
  subst h1
  obtain ⟨d', hd'⟩ := holds_run cs hs
  exact ⟨h2, h3.core, d', h3.holds hd'⟩

end Hyperbee
