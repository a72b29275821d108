import Verif.Proof.PeerSim
/-!
# What may happen on the blocks `F` happens to a handle of its own

Every result of `Dream` is one a handle opened on `F` has, when the same fetches fail.
-/

namespace Hyperbee

/-- A run alone, in which a fetch of block `q` may fail as `mis q` says. -/
inductive Runs (mis : Nat → Fault → Prop) {α : Type} : Prog α → St → Except Err α → St → Prop where
  | pure {a : α} {s : St} : Runs mis (.pure a) s (.ok a) s
  | throw {e : Err} {s : St} : Runs mis (.throw e) s (.error e) s
  | step {β : Type} {x : Atom β} {k : Except Err β → Prog α} {s t : St} {r : Except Err α} :
      Runs mis (k (x.run s).1) (x.run s).2 r t → Runs mis (.step x k) s r t
  | fault {β : Type} {x : Atom β} {k : Except Err β → Prog α} {s t : St} {r : Except Err α} {q : Nat} {f : Fault}
      {y : Except Err β} : x.fetches = some q → mis q f → x.fail f = some y → Runs mis (k y) s r t →
      Runs mis (.step x k) s r t

variable {F : List Bytes} {mis : Nat → Fault → Prop}

theorem Runs.flaky {p : Prog α} {s t : St} {r : Except Err α} (h : Runs mis p s r t) :
    ∃ fs, p.flaky fs s = (r, t) := by
  induction h with
  | pure => exact ⟨[], rfl⟩
  | throw => exact ⟨[], rfl⟩
  | step _ ih =>
    obtain ⟨fs, h⟩ := ih
    exact ⟨none :: fs, by simpa [Prog.flaky] using h⟩
  | @fault β x k s t r q f y _ _ hy _ ih =>
    obtain ⟨fs, h⟩ := ih
    exact ⟨some f :: fs, by simpa [Prog.flaky, hy] using h⟩

theorem Runs.run {p : Prog α} {s t : St} {r : Except Err α} (h : Runs mis p s r t) (hm : ∀ q f, ¬ mis q f) :
    p.run s = (r, t) := by
  induction h with
  | pure => rfl
  | throw => rfl
  | step _ ih => exact ih
  | fault _ h => exact absurd h (hm _ _)

theorem Runs.bind_ok {p : Prog α} {f : α → Prog β} {s t u : St} {a : α} {r : Except Err β}
    (h : Runs mis p s (.ok a) t) (hf : Runs mis (f a) t r u) : Runs mis (p >>= f) s r u := by
  show Runs mis (Prog.bind p f) s r u
  generalize hx : Except.ok a = x at h
  induction h with
  | pure => cases hx; exact hf
  | throw => cases hx
  | step _ ih => exact .step (ih hf hx)
  | fault h1 h2 h3 _ ih => exact .fault h1 h2 h3 (ih hf hx)

theorem Runs.bind_error {p : Prog α} {f : α → Prog β} {s t : St} {e : Err}
    (h : Runs mis p s (.error e) t) : Runs mis (p >>= f) s (.error e) t := by
  show Runs mis (Prog.bind p f) s (.error e) t
  generalize hx : Except.error e = x at h
  induction h with
  | pure => cases hx
  | throw => cases hx; exact .throw
  | step _ ih => exact .step (ih hx)
  | fault h1 h2 h3 _ ih => exact .fault h1 h2 h3 (ih hx)

theorem Runs.under {p : Prog α} {s t : St} {r : Except Err α} (a : Nat) (m : Mode)
    (h : Runs mis p s r t) : Runs mis (Prog.under a m p) s r t := by
  induction h with
  | pure => exact .pure
  | throw => exact .throw
  | step _ ih => exact .step ih
  | fault h1 h2 h3 _ ih => exact .fault (x := .under a m _) h1 h2 h3 ih

theorem Runs.tryResult {p : Prog α} {s t : St} {r : Except Err α} (h : Runs mis p s r t) :
    Runs mis p.tryResult s (tried r) t := by
  induction h with
  | pure => exact .pure
  | @throw e s =>
    rw [tryResult_throw]
    cases tried (.error e : Except Err α) with
    | ok a => exact .pure
    | error e => exact .throw
  | step _ ih => exact .step ih
  | fault h1 h2 h3 _ ih => exact .fault h1 h2 h3 ih

theorem Runs.replyOf {p : Prog α} {s t : St} {r : Except Err α} (f : α → Reply) (h : Runs mis p s r t) :
    Runs mis (Prog.replyOf f p) s (replied f r) t := by
  induction h with
  | pure => exact .pure
  | throw => exact .pure
  | step _ ih => exact .step ih
  | fault h1 h2 h3 _ ih => exact .fault h1 h2 h3 ih

/-- A handle on `F` that has obtained the blocks `D`. -/
structure Private (F : List Bytes) (Γ : Names) (s : St) (D : Nat → Prop) : Prop where
  known : Known Γ s
  core : s.core = F
  got : ∀ q, D q ↔ s.cache q ≠ none

theorem private_new (F : List Bytes) : Private F (fun _ => none) (St.open F) fun _ => False :=
  ⟨known_new F, rfl, fun _ => ⟨False.elim, fun h => h rfl⟩⟩

/-- Whatever `p'` may do on `F`, the handle does with `p`. -/
def SimP (F : List Bytes) (mis : Nat → Fault → Prop) (p p' : Prog α) (Γ : Names) (R : Names → α → α → Prop) : Prop :=
  ∀ s D, Private F Γ s D → ∀ r' D', Dream F mis p' D r' D' →
    ∃ r s' Γ', Γ.le Γ' ∧ Private F Γ' s' D' ∧ Runs mis p s r s' ∧ RR R Γ' r r'

theorem SimP.pure {a i : α} {Γ : Names} {R : Names → α → α → Prop} (h : ∀ Γ', Γ.le Γ' → R Γ' a i) :
    SimP F mis (Pure.pure a) (Pure.pure i) Γ R := by
  intro s D hp r' D' hd
  cases hd
  exact ⟨.ok a, s, Γ, .refl Γ, hp, .pure, h Γ (.refl Γ)⟩

theorem SimP.throw {e : Err} {Γ : Names} {R : Names → α → α → Prop} :
    SimP F mis (Prog.throw e) (Prog.throw e) Γ R := by
  intro s D hp r' D' hd
  cases hd
  exact ⟨.error e, s, Γ, .refl Γ, hp, .throw, rfl⟩

theorem SimP.bind {p p' : Prog α} {f f' : α → Prog β} {Γ : Names} {R : Names → α → α → Prop}
    {S : Names → β → β → Prop} (h : SimP F mis p p' Γ R)
    (hf : ∀ Γ' a i, Γ.le Γ' → R Γ' a i → SimP F mis (f a) (f' i) Γ' S) :
    SimP F mis (p >>= f) (p' >>= f') Γ S := by
  intro s D hp r' D'' hd
  rcases hd.of_bind with ⟨i, D', h1, h2⟩ | ⟨e, h1, rfl⟩
  · obtain ⟨r, t, Γ', hl, hp', hr, hR⟩ := h s D hp _ _ h1
    obtain ⟨a, rfl, hR⟩ := hR.ok_inv'
    obtain ⟨r2, u, Γ'', hl', hp'', hr', hS⟩ := hf Γ' a i hl hR t D' hp' _ _ h2
    exact ⟨r2, u, Γ'', hl.trans hl', hp'', hr.bind_ok hr', hS⟩
  · obtain ⟨r, t, Γ', hl, hp', hr, hR⟩ := h s D hp _ _ h1
    cases hR.error_inv'
    exact ⟨.error e, t, Γ', hl, hp', hr.bind_error, rfl⟩

theorem SimP.under {p p' : Prog α} {Γ : Names} {R : Names → α → α → Prop} (a i : Nat) (m : Mode)
    (h : SimP F mis p p' Γ R) : SimP F mis (Prog.under a m p) (Prog.under i m p') Γ R := by
  intro s D hp r' D' hd
  obtain ⟨r, t, Γ', hl, hp', hr, hR⟩ := h s D hp _ _ hd.of_under
  exact ⟨r, t, Γ', hl, hp', hr.under a m, hR⟩

theorem SimP.tryResult {p p' : Prog α} {Γ : Names} {R : Names → α → α → Prop}
    (h : SimP F mis p p' Γ R) : SimP F mis p.tryResult p'.tryResult Γ (RR R) := by
  intro s D hp r' D' hd
  obtain ⟨r0, hd0, rfl⟩ := hd.of_tryResult
  obtain ⟨r, t, Γ', hl, hp', hr, hR⟩ := h s D hp _ _ hd0
  exact ⟨tried r, t, Γ', hl, hp', hr.tryResult, rr_tried hR⟩

theorem SimP.replyOf {p p' : Prog α} {Γ : Names} (f : α → Reply)
    (h : SimP F mis p p' Γ EqR) : SimP F mis (Prog.replyOf f p) (Prog.replyOf f p') Γ EqR := by
  intro s D hp r' D' hd
  obtain ⟨r0, hd0, rfl⟩ := hd.of_replyOf
  obtain ⟨r, t, Γ', hl, hp', hr, hR⟩ := h s D hp _ _ hd0
  exact ⟨_, t, Γ', hl, hp', hr.replyOf f, rr_replied f hR⟩

theorem simP_version {Γ : Names} : SimP F mis Prog.version Prog.version Γ EqR := by
  intro s D hp r' D' hd
  cases hd with
  | step h1 h2 =>
    obtain ⟨rfl, rfl⟩ := h1
    cases h2
    exact ⟨.ok F.length, s, Γ, .refl Γ, hp, .step (by
      rw [show (Atom.version).run s = (.ok s.core.length, s) from rfl, hp.core]; exact .pure), rfl⟩

theorem simP_descentFuel {Γ : Names} : SimP F mis Prog.descentFuel Prog.descentFuel Γ EqR := by
  intro s D hp r' D' hd
  cases hd with
  | step h1 h2 =>
    obtain ⟨rfl, rfl⟩ := h1
    cases h2
    exact ⟨.ok (stepBound F), s, Γ, .refl Γ, hp, .step (by
      rw [show (Atom.descentFuel).run s = (.ok (stepBound s.core), s) from rfl, hp.core]; exact .pure), rfl⟩

theorem simP_readNode {Γ : Names} {a i : Nat} (h : Γ a = some i) :
    SimP F mis (Prog.readNode a) (Prog.readNode i) Γ EqR := by
  intro s D hp r' D' hd
  obtain ⟨n, h1, h2⟩ := hp.known.dom a i h
  rw [hp.core] at h2
  have hn : idealNode (St.open F) i = some n := by simpa [idealNode, St.open] using h2
  have hr : idealAtom (St.open F) (.readNode i) = .ok n := by simp only [idealAtom, hn]
  cases hd with
  | step h3 h4 =>
    obtain ⟨rfl, rfl⟩ := h3
    rw [hr] at h4
    cases h4
    refine ⟨.ok n, s, Γ, .refl Γ, hp, .step ?_, rfl⟩
    rw [show (Atom.readNode a).run s = (.ok n, s) from readNode_some h1]
    exact .pure

theorem simP_blocksGet {Γ : Names} (q : Nat) : SimP F mis (Prog.blocksGet q) (Prog.blocksGet q) Γ ERel := by
  intro s D hp r' D' hd
  have hread : s.io.readable q = true := by rw [hp.known.io]; rfl
  cases hc : s.cache q with
  | some e =>
    have hD : D q := (hp.got q).2 (by simp [hc])
    obtain ⟨b, hb, he⟩ := hp.known.ent q e hc
    rw [hp.core] at hb
    have hrun : Runs mis (Prog.blocksGet q) s (.ok e) s := by
      unfold Prog.blocksGet
      refine .step ?_
      rw [show (Atom.cacheGet q).run s = (.ok (s.cache q), s) from rfl, hc]
      exact .pure
    refine ⟨.ok e, s, Γ, .refl Γ, ?_, hrun, ?_⟩
    all_goals
      cases hd with
      | step h1 h2 =>
        obtain ⟨⟨_, e', he', rfl⟩ | ⟨hn, _⟩, rfl⟩ := h1
        rotate_left
        · exact absurd hD hn
        cases h2
        first
        | exact hp
        | rw [idealEntry_open hb] at he'; cases he'; exact he
  | none =>
    have hD : ¬ D q := fun h => (hp.got q).1 h hc
    have hfirst : ∀ r t, Runs mis (Prog.lift (.coreFetch q) >>= fun o => match o with
          | none => Prog.throw (.noBlockAtSeq q)
          | some entry => do
            Prog.lift (.cacheInsert q entry)
            Pure.pure entry) s r t → Runs mis (Prog.blocksGet q) s r t := by
      intro r t h
      refine Runs.bind_ok (t := s) (a := none) (.step ?_) h
      rw [show (Atom.cacheGet q).run s = (.ok (s.cache q), s) from rfl, hc]
      exact .pure
    rcases dream_blocksGet hd with ⟨rfl, h⟩ | ⟨f, h1, h2, rfl, rfl⟩
    · cases hx : F[q]? with
      | none =>
        rw [idealEntry_open_none hx] at h ⊢
        rcases h with ⟨e, h, -⟩ | ⟨-, rfl⟩
        · cases h
        refine ⟨.error (.noBlockAtSeq q), s, Γ, .refl Γ, hp, hfirst _ _ (.step ?_), rfl⟩
        have : getFromCore q s = (.ok none, s) := by
          have hg : coreGet q s = (.ok none, s) := by simp [coreGet, hp.core, hx]
          unfold getFromCore
          rw [bind_ok hg]
          rfl
        rw [show (Atom.coreFetch q).run s = getFromCore q s from rfl, this]
        exact .throw
      | some x =>
        have hx2 : s.core[q]? = some x := by rw [hp.core]; exact hx
        cases hbl : blockOf x with
        | none =>
          rw [idealEntry_open_err hx hbl] at h ⊢
          rcases h with ⟨e, h, -⟩ | ⟨-, rfl⟩
          · cases h
          obtain ⟨xs, hf⟩ := getFromCore_err hread hx2 hbl
          refine ⟨.error (blockErr x), _, Γ, .refl Γ, ⟨hp.known.heap xs, hp.core, hp.got⟩, hfirst _ _ (.step ?_), rfl⟩
          rw [show (Atom.coreFetch q).run s = getFromCore q s from rfl, hf]
          exact .throw
        | some b =>
          have hba : blockAt F q = some b := by simp [blockAt, hx, hbl]
          have hba2 : blockAt s.core q = some b := by rw [hp.core]; exact hba
          rw [idealEntry_open hba] at h ⊢
          rcases h with ⟨e, -, rfl⟩ | ⟨⟨e, h⟩, -⟩
          rotate_left
          · cases h
          obtain ⟨hle, hi3⟩ := hp.known.load hba2
          have her : ERel (Γ.load s.heap.length b.nodes.length fun j => Nat.pair q j)
              ⟨List.range' s.heap.length b.nodes.length, b.key, b.value⟩
              ⟨(List.range b.nodes.length).map fun j => Nat.pair q j, b.key, b.value⟩ :=
            ⟨rfl, rfl, forall2_load _ _ _ _⟩
          refine ⟨.ok _, _, _, hle, ⟨hi3.file hba2 her, hp.core, ?_⟩, hfirst _ _ (.step ?_), her⟩
          · intro x
            simp only [also, cacheInsert]
            split
            · rename_i hx; simp [hx]
            · rename_i hne
              rw [hp.got x]
              exact ⟨fun h => h.resolve_left hne, .inr⟩
          · rw [show (Atom.coreFetch q).run s = getFromCore q s from rfl, getFromCore_run hread hba2]
            exact .step .pure
    · refine ⟨.error (f.err q), s, Γ, .refl Γ, hp, hfirst _ _ (.fault rfl h2 rfl ?_), rfl⟩
      cases f <;> exact .throw

theorem simP_orPanic {site : String} {o o' : Option α} {Γ : Names} {R : Names → α → α → Prop}
    (h : ∀ Γ', Γ.le Γ' → Option.Rel (R Γ') o o') : SimP F mis (Prog.orPanic site o) (Prog.orPanic site o') Γ R := by
  cases o with
  | none =>
    cases o' with
    | none => exact SimP.throw
    | some i => nomatch h Γ (.refl Γ)
  | some a =>
    cases o' with
    | none => nomatch h Γ (.refl Γ)
    | some i => exact SimP.pure fun Γ' hl => by cases h Γ' hl; assumption

theorem simP_orPanic_eq {site : String} {o : Option α} {Γ : Names} :
    SimP F mis (Prog.orPanic site o) (Prog.orPanic site o) Γ EqR :=
  simP_orPanic fun _ _ => by cases o <;> constructor; rfl

theorem simP_getTreeNode {Γ : Names} {e e' : BlockEntry} (h : ERel Γ e e') (o : Nat) :
    SimP F mis (Prog.getTreeNode e o) (Prog.getTreeNode e' o) Γ NameR :=
  simP_orPanic fun _ hl => forall2_rel (h.mono hl).nodes o

theorem simP_getChild {Γ : Names} {a i : Nat} (h : Γ a = some i) (j : Nat) :
    SimP F mis (Prog.getChild a j) (Prog.getChild i j) Γ NameR := by
  unfold Prog.getChild
  refine SimP.bind (simP_readNode h) fun Γ1 n n' h1 hn => ?_
  cases hn
  refine SimP.under a i .read (SimP.bind simP_orPanic_eq fun Γ2 c c' h2 hc => ?_)
  cases hc
  exact SimP.bind (simP_blocksGet _) fun Γ3 e e' h3 he => simP_getTreeNode he _

theorem simP_getKeyValue {Γ : Names} {a i : Nat} (h : Γ a = some i) (j : Nat) :
    SimP F mis (Prog.getKeyValue a j) (Prog.getKeyValue i j) Γ EqR := by
  unfold Prog.getKeyValue
  refine SimP.bind (simP_readNode h) fun Γ1 n n' h1 hn => ?_
  cases hn
  refine SimP.under a i .read (SimP.bind simP_orPanic_eq fun Γ2 q q' h2 hq => ?_)
  cases hq
  refine SimP.bind (simP_blocksGet _) fun Γ3 b1 b1' h3 he1 => ?_
  refine SimP.bind (simP_blocksGet _) fun Γ4 b2 b2' h4 he2 => ?_
  rw [he1.key, he2.value]
  exact SimP.pure fun _ _ => rfl

theorem simPLaws : Laws fun _ p p' Γ R => SimP F mis p p' Γ R where
  pure h := SimP.pure h
  throw := SimP.throw
  bind h hf := SimP.bind h hf
  under a i m h := SimP.under a i m h
  tryResult h := SimP.tryResult h
  readNode h := simP_readNode h
  getChild h := simP_getChild h
  getKeyValue h := simP_getKeyValue h

theorem simP_nearestNode {Γ : Names} {a i : Nat} (h : Γ a = some i) (k : LimitValue) :
    SimP F mis (Prog.nearestNode a k) (Prog.nearestNode i k) Γ FoundR := by
  unfold Prog.nearestNode
  refine SimP.bind simP_descentFuel fun Γ1 n n' h1 hn => ?_
  cases hn
  exact simPLaws.nearestLoop k _ _ _ _ _ _ (h1 _ _ h) .nil

theorem simP_getRoot {Γ : Names} : SimP F mis (Prog.getRoot false) (Prog.getRoot false) Γ RootR := by
  unfold Prog.getRoot
  refine SimP.bind simP_version fun Γ1 v v' h1 hv => ?_
  cases hv
  split
  · split
    · rename_i h; simp at h
    · exact SimP.pure fun _ _ => Option.Rel.none
  · refine SimP.bind (simP_blocksGet _) fun Γ2 e e' h2 he => ?_
    refine SimP.bind (simP_getTreeNode he _) fun Γ3 a i h3 ha => ?_
    exact SimP.pure fun Γ4 h4 => Option.Rel.some (h4 _ _ ha)

theorem simP_get {Γ : Names} (k : Bytes) : SimP F mis (Prog.get k) (Prog.get k) Γ EqR := by
  unfold Prog.get
  refine SimP.bind simP_getRoot fun Γ1 r r' h1 hr => ?_
  cases hr with
  | none => exact SimP.pure fun _ _ => rfl
  | some ha =>
    refine SimP.bind (simP_nearestNode ha _) ?_
    rintro Γ2 ⟨m, p⟩ ⟨m', p'⟩ h2 ⟨hm, hp⟩
    cases hm
    cases m with
    | none => exact SimP.pure fun _ _ => rfl
    | some q =>
      refine SimP.bind (simPLaws.head hp) ?_
      rintro Γ3 ⟨a, j⟩ ⟨i, j'⟩ h3 ⟨ha3, hj⟩
      cases hj
      refine SimP.bind (simP_getKeyValue ha3 _) fun Γ4 kv kv' h4 hkv => ?_
      cases hkv
      exact SimP.pure fun _ _ => rfl

theorem simP_traverse {Γ : Names} (conf : TraverseConfig) :
    SimP F mis (Prog.traverse conf) (Prog.traverse conf) Γ (fun Γ => List.Forall₂ (FrameR Γ)) := by
  unfold Prog.traverse
  refine SimP.bind simP_getRoot fun Γ1 r r' h1 hr => ?_
  cases hr with
  | none => exact SimP.throw
  | some ha => exact SimP.pure fun Γ2 h2 => .cons (frame_new (h2 _ _ ha) _) .nil

theorem simP_traverseSession {Γ : Names} (b : TraverseConfigBuilder) (rs : List Bool) :
    SimP F mis (Prog.traverseSession b rs) (Prog.traverseSession b rs) Γ EqR := by
  unfold Prog.traverseSession
  cases b.build with
  | error e => exact SimP.throw
  | ok conf =>
    dsimp only
    unfold Prog.collect
    refine SimP.bind (SimP.bind (simP_traverse conf) fun Γ1 fs fs' h1 hf => simPLaws.drive rs fs fs' Γ1 hf) ?_
    rintro Γ2 ⟨xs, fin⟩ ⟨xs', fin'⟩ h2 ⟨hxs, hfin⟩
    cases hxs
    cases hfin with
    | none => exact SimP.pure fun _ _ => rfl
    | some hh => exact SimP.pure fun _ _ => rfl

theorem simP_exec {Γ : Names} {c : Cmd} (hc : c.looks = true) :
    SimP F mis (Prog.exec c) (Prog.exec c) Γ EqR := by
  cases c with
  | version => exact SimP.replyOf _ simP_version
  | get k => exact SimP.replyOf _ (simP_get k)
  | traverse b rs => exact SimP.replyOf _ (simP_traverseSession b rs)
  | _ => cases hc

/-- Whatever a reading call may reply on `F`, it replies through a fresh handle when the same fetches
fail. -/
theorem Dream.runs {c : Cmd} (hc : c.looks = true) {r : Except Err Reply} {D : Nat → Prop}
    (h : Dream F mis (Prog.exec c) (fun _ => False) r D) : ∃ t, Runs mis (Prog.exec c) (St.open F) r t := by
  obtain ⟨r', t, Γ', -, -, h1, h2⟩ := simP_exec (Γ := fun _ => none) hc (St.open F) _ (private_new F) _ _ h
  refine ⟨t, ?_⟩
  cases r with
  | ok a => obtain ⟨b, rfl, hb⟩ := h2.ok_inv'; cases hb; exact h1
  | error e => cases h2.error_inv'; exact h1

end Hyperbee
