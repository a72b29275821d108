import Verif.Proof.Dream
/-!
# A reader while blocks come and go

`OkL`: from the moment a reader has asked for the length of the core, which was `F` then, and whatever
is loaded, appended, received or lost in between, its result is one it may have on `F` (`Dream`), where
fetching a block fails only if it failed here.
-/

namespace Hyperbee

/-- `Known`, whatever can be read. -/
def KnownL (Γ : Names) (s : St) : Prop := Known Γ { s with io := Io.good }

theorem knownL_io {Γ : Names} {s : St} (h : KnownL Γ s) (io : Io) : KnownL Γ { s with io := io } := h

theorem KnownL.core {Γ : Names} {s : St} (h : KnownL Γ s) {c : List Bytes} (hc : s.core <+: c) :
    KnownL Γ { s with core := c } := Known.core h hc

theorem KnownL.heap {Γ : Names} {s : St} (h : KnownL Γ s) (xs : List Node) :
    KnownL Γ { s with heap := s.heap ++ xs } := Known.heap h xs

theorem KnownL.load {Γ : Names} {s : St} (h : KnownL Γ s) {q : Nat} {b : Blk} (hb : blockAt s.core q = some b) :
    Γ.le (Γ.load s.heap.length b.nodes.length fun j => Nat.pair q j) ∧
    KnownL (Γ.load s.heap.length b.nodes.length fun j => Nat.pair q j) { s with heap := s.heap ++ b.nodes } :=
  Known.load h hb

theorem KnownL.file {Γ : Names} {s : St} (h : KnownL Γ s) {q : Nat} {e : BlockEntry} {b : Blk}
    (hb : blockAt s.core q = some b)
    (hr : ERel Γ e ⟨(List.range b.nodes.length).map fun j => Nat.pair q j, b.key, b.value⟩) :
    KnownL Γ { s with cache := cacheInsert q e s.cache } := Known.file h hb hr

/-- These blocks are in memory. -/
def Got (D : Nat → Prop) (s : St) : Prop := ∀ q, D q → s.cache q ≠ none

/-- Whatever is loaded, appended, received and lost in between, `p` only loads blocks, and its result
satisfies `Q`. -/
def OkL (F : List Bytes) (mis : Nat → Fault → Prop) : Prog α → Names → (Nat → Prop) →
    (Names → (Nat → Prop) → Except Err α → Prop) → Prop
  | .pure a, Γ, D, Q => ∀ Γ', Γ.le Γ' → Bd F Γ' → Q Γ' D (.ok a)
  | .throw e, Γ, D, Q => ∀ Γ', Γ.le Γ' → Bd F Γ' → Q Γ' D (.error e)
  | .step x k, Γ, D, Q => Bd F Γ →
      (∀ Γg s, Γ.le Γg → F <+: s.core → KnownL Γg s → Got D s →
        (∀ q, x.fetches = some q → ¬ mis q .missing → s.io.readable q = true) →
        ∃ Γg' D', Γg.le Γg' ∧ KnownL Γg' (x.run s).2 ∧ (x.run s).2.core = s.core ∧ Got D' (x.run s).2 ∧
          Got (fun q => s.cache q ≠ none) (x.run s).2 ∧ OkL F mis (k (x.run s).1) (cut F Γg') D' Q) ∧
      ∀ q f r, x.fetches = some q → mis q f → x.fail f = some r → OkL F mis (k r) Γ D Q

variable {F : List Bytes} {mis : Nat → Fault → Prop}

theorem OkL.bd {p : Prog α} {Γ : Names} {D : Nat → Prop} {Q : Names → (Nat → Prop) → Except Err α → Prop}
    (h : Bd F Γ → OkL F mis p Γ D Q) : OkL F mis p Γ D Q := by
  cases p with
  | pure a => exact fun Γ' hl hb => h (hb.of_le hl) Γ' hl hb
  | throw e => exact fun Γ' hl hb => h (hb.of_le hl) Γ' hl hb
  | step x k => exact fun hb => h hb hb

theorem OkL.mono {p : Prog α} {Γ Γ' : Names} {D : Nat → Prop} {Q : Names → (Nat → Prop) → Except Err α → Prop}
    (hle : Γ.le Γ') (h : OkL F mis p Γ D Q) : OkL F mis p Γ' D Q := by
  induction p generalizing Γ Γ' D with
  | pure a => exact fun Γ'' hl => h Γ'' (hle.trans hl)
  | throw e => exact fun Γ'' hl => h Γ'' (hle.trans hl)
  | step x k ih =>
    intro hb
    obtain ⟨h1, h2⟩ := h (hb.of_le hle)
    exact ⟨fun Γ'' s hl => h1 Γ'' s (hle.trans hl), fun q f r a b c => ih _ hle (h2 q f r a b c)⟩

theorem OkL.bind {p : Prog α} {f : α → Prog β} {Γ : Names} {D : Nat → Prop}
    {Q : Names → (Nat → Prop) → Except Err α → Prop} {R : Names → (Nat → Prop) → Except Err β → Prop}
    (h : OkL F mis p Γ D Q)
    (hf : ∀ Γ' D' a, Γ.le Γ' → Q Γ' D' (.ok a) → OkL F mis (f a) Γ' D' R)
    (he : ∀ Γ' D' e, Γ.le Γ' → Q Γ' D' (.error e) → R Γ' D' (.error e)) :
    OkL F mis (p >>= f) Γ D R := by
  show OkL F mis (Prog.bind p f) Γ D R
  induction p generalizing Γ D with
  | pure a => exact .bd fun hb => hf Γ D a (.refl Γ) (h Γ (.refl Γ) hb)
  | throw e => exact fun Γ' hl hb => he Γ' D e hl (h Γ' hl hb)
  | step x k ih =>
    intro hb
    obtain ⟨h, hx⟩ := h hb
    refine ⟨fun Γg s hl hF hi hg hm => ?_, fun q f r a b c => ih _ (hx q f r a b c) hf he⟩
    obtain ⟨Γg', D', h1, h2, h3, h4, hmono, h5⟩ := h Γg s hl hF hi hg hm
    have hc := le_cut hb (hl.trans h1)
    exact ⟨Γg', D', h1, h2, h3, h4, hmono, ih _ h5 (fun Γ3 D3 a hl3 => hf Γ3 D3 a (hc.trans hl3))
      (fun Γ3 D3 e hl3 => he Γ3 D3 e (hc.trans hl3))⟩

theorem OkL.imp {p : Prog α} {Γ : Names} {D : Nat → Prop} {Q R : Names → (Nat → Prop) → Except Err α → Prop}
    (h : OkL F mis p Γ D Q) (hq : ∀ Γ' D' r, Q Γ' D' r → R Γ' D' r) : OkL F mis p Γ D R := by
  induction p generalizing Γ D with
  | pure a => exact fun Γ' hl hb => hq Γ' _ _ (h Γ' hl hb)
  | throw e => exact fun Γ' hl hb => hq Γ' _ _ (h Γ' hl hb)
  | step x k ih =>
    intro hb
    obtain ⟨h, hx⟩ := h hb
    refine ⟨fun Γg s hl hF hi hg hm => ?_, fun q f r a b c => ih _ (hx q f r a b c)⟩
    obtain ⟨Γg', D', h1, h2, h3, h4, hmono, h5⟩ := h Γg s hl hF hi hg hm
    exact ⟨Γg', D', h1, h2, h3, h4, hmono, ih _ h5⟩

theorem OkL.under {p : Prog α} {Γ : Names} {D : Nat → Prop} {Q : Names → (Nat → Prop) → Except Err α → Prop}
    (a : Nat) (m : Mode) (h : OkL F mis p Γ D Q) : OkL F mis (Prog.under a m p) Γ D Q := by
  induction p generalizing Γ D with
  | pure a => exact h
  | throw e => exact h
  | step x k ih =>
    intro hb
    obtain ⟨h, hx⟩ := h hb
    refine ⟨fun Γg s hl hF hi hg hm => ?_, fun q f r a b c => ih _ (hx q f r a b c)⟩
    obtain ⟨Γg', D', h1, h2, h3, h4, hmono, h5⟩ := h Γg s hl hF hi hg hm
    exact ⟨Γg', D', h1, h2, h3, h4, hmono, ih _ h5⟩

theorem OkL.tryResult {p : Prog α} {Γ : Names} {D : Nat → Prop} {Q : Names → (Nat → Prop) → Except Err α → Prop}
    (h : OkL F mis p Γ D Q) : OkL F mis p.tryResult Γ D fun Γ' D' r => ∃ r0, r = tried r0 ∧ Q Γ' D' r0 := by
  induction p generalizing Γ D with
  | pure a => exact fun Γ' hl hb => ⟨_, rfl, h Γ' hl hb⟩
  | throw e =>
    rw [tryResult_throw]
    cases hx : tried (.error e : Except Err α) with
    | ok a => exact fun Γ' hl hb => ⟨_, hx.symm, h Γ' hl hb⟩
    | error e => exact fun Γ' hl hb => ⟨_, hx.symm, h Γ' hl hb⟩
  | step x k ih =>
    intro hb
    obtain ⟨h, hx⟩ := h hb
    refine ⟨fun Γg s hl hF hi hg hm => ?_, fun q f r a b c => ih _ (hx q f r a b c)⟩
    obtain ⟨Γg', D', h1, h2, h3, h4, hmono, h5⟩ := h Γg s hl hF hi hg hm
    exact ⟨Γg', D', h1, h2, h3, h4, hmono, ih _ h5⟩

theorem OkL.replyOf {p : Prog α} {Γ : Names} {D : Nat → Prop} {Q : Names → (Nat → Prop) → Except Err α → Prop}
    (f : α → Reply) (h : OkL F mis p Γ D Q) :
    OkL F mis (Prog.replyOf f p) Γ D fun Γ' D' r => ∃ r0, r = replied f r0 ∧ Q Γ' D' r0 := by
  induction p generalizing Γ D with
  | pure a => exact fun Γ' hl hb => ⟨_, rfl, h Γ' hl hb⟩
  | throw e => exact fun Γ' hl hb => ⟨.error e, rfl, h Γ' hl hb⟩
  | step x k ih =>
    intro hb
    obtain ⟨h, hx⟩ := h hb
    refine ⟨fun Γg s hl hF hi hg hm => ?_, fun q f r a b c => ih _ (hx q f r a b c)⟩
    obtain ⟨Γg', D', h1, h2, h3, h4, hmono, h5⟩ := h Γg s hl hF hi hg hm
    exact ⟨Γg', D', h1, h2, h3, h4, hmono, ih _ h5⟩

/-! ## A result that is possible on `F` -/

/-- `p` ends as `p'` may on the blocks `F`. -/
def SimL (F : List Bytes) (mis : Nat → Fault → Prop) (p p' : Prog α) (Γ : Names) (R : Names → α → α → Prop) : Prop :=
  ∀ D, OkL F mis p Γ D fun Γ' D' r => ∃ r', Dream F mis p' D r' D' ∧ RR R Γ' r r'

theorem SimL.pure {a i : α} {Γ : Names} {R : Names → α → α → Prop} (h : ∀ Γ', Γ.le Γ' → R Γ' a i) :
    SimL F mis (Pure.pure a) (Pure.pure i) Γ R := fun _ Γ' hl _ => ⟨.ok i, .pure, h Γ' hl⟩

theorem SimL.throw {e : Err} {Γ : Names} {R : Names → α → α → Prop} :
    SimL F mis (Prog.throw e) (Prog.throw e) Γ R := fun _ _ _ _ => ⟨.error e, .throw, rfl⟩

theorem RR.ok_inv {R : Names → α → α → Prop} {Γ : Names} {a : α} {r' : Except Err α} (h : RR R Γ (.ok a) r') :
    ∃ i, r' = .ok i ∧ R Γ a i := by
  cases r' with
  | ok i => exact ⟨i, rfl, h⟩
  | error e => exact h.elim

theorem RR.error_inv {R : Names → α → α → Prop} {Γ : Names} {e : Err} {r' : Except Err α} (h : RR R Γ (.error e) r') :
    r' = .error e := by
  cases r' with
  | ok i => exact h.elim
  | error e' => exact congrArg Except.error (Eq.symm h)

theorem RR.ok_inv' {R : Names → α → α → Prop} {Γ : Names} {i : α} {r : Except Err α} (h : RR R Γ r (.ok i)) :
    ∃ a, r = .ok a ∧ R Γ a i := by
  cases r with
  | ok a => exact ⟨a, rfl, h⟩
  | error e => exact h.elim

theorem RR.error_inv' {R : Names → α → α → Prop} {Γ : Names} {e : Err} {r : Except Err α} (h : RR R Γ r (.error e)) :
    r = .error e := by
  cases r with
  | ok i => exact h.elim
  | error e' => exact congrArg Except.error h

theorem SimL.bind {p p' : Prog α} {f f' : α → Prog β} {Γ : Names} {R : Names → α → α → Prop}
    {S : Names → β → β → Prop} (h : SimL F mis p p' Γ R)
    (hf : ∀ Γ' a i, Γ.le Γ' → R Γ' a i → SimL F mis (f a) (f' i) Γ' S) :
    SimL F mis (p >>= f) (p' >>= f') Γ S := by
  intro D
  refine OkL.bind (h D) ?_ ?_
  · rintro Γ' D' a hl ⟨r', h1, h2⟩
    obtain ⟨i, rfl, h2⟩ := h2.ok_inv
    refine OkL.imp (hf Γ' a i hl h2 D') ?_
    rintro Γ'' D'' r ⟨r'', h3, h4⟩
    exact ⟨r'', h1.bind_ok h3, h4⟩
  · rintro Γ' D' e hl ⟨r', h1, h2⟩
    cases h2.error_inv
    exact ⟨.error e, h1.bind_error, rfl⟩

theorem SimL.under {p p' : Prog α} {Γ : Names} {R : Names → α → α → Prop} (a i : Nat) (m : Mode)
    (h : SimL F mis p p' Γ R) : SimL F mis (Prog.under a m p) (Prog.under i m p') Γ R := by
  intro D
  refine OkL.imp (OkL.under a m (h D)) ?_
  rintro Γ' D' r ⟨r', h1, h2⟩
  exact ⟨r', h1.under i m, h2⟩

theorem rr_tried {R : Names → α → α → Prop} {Γ : Names} {r r' : Except Err α} (h : RR R Γ r r') :
    RR (RR R) Γ (tried r) (tried r') := by
  cases r with
  | ok a => obtain ⟨i, rfl, h⟩ := h.ok_inv; exact h
  | error e => cases h.error_inv; cases e <;> exact rfl

theorem rr_replied {Γ : Names} {r r' : Except Err α} (f : α → Reply) (h : RR EqR Γ r r') :
    RR EqR Γ (replied f r) (replied f r') := by
  cases r with
  | ok a => obtain ⟨i, rfl, h⟩ := h.ok_inv; cases h; exact rfl
  | error e => cases h.error_inv; exact rfl

theorem SimL.tryResult {p p' : Prog α} {Γ : Names} {R : Names → α → α → Prop}
    (h : SimL F mis p p' Γ R) : SimL F mis p.tryResult p'.tryResult Γ (RR R) := by
  intro D
  refine OkL.imp (OkL.tryResult (h D)) ?_
  rintro Γ' D' r ⟨r0, rfl, r', h1, h2⟩
  exact ⟨_, h1.tryResult, rr_tried h2⟩

theorem SimL.imp {p p' : Prog α} {Γ : Names} {R S : Names → α → α → Prop} (h : SimL F mis p p' Γ R)
    (hR : ∀ Γ' a i, R Γ' a i → S Γ' a i) : SimL F mis p p' Γ S := by
  intro D
  refine OkL.imp (h D) ?_
  rintro Γ' D' r ⟨r', h1, h2⟩
  refine ⟨r', h1, ?_⟩
  revert h2
  cases r <;> cases r' <;> first | exact hR _ _ _ | exact id

/-! ## The steps -/

theorem simL_readNode' {Γ : Names} {a i : Nat} (h : Γ a = some i) :
    SimL F mis (Prog.readNode a) (Prog.readNode i) Γ
      (fun _ n n' => n = n' ∧ nodeAt F ⟨(Nat.unpair i).1, (Nat.unpair i).2⟩ = some n) := by
  intro D hb
  refine ⟨?_, fun q f r h => by cases h⟩
  intro Γg s hl hF hi hg _
  obtain ⟨n, h1, h2⟩ := hi.dom a i (hl a i h)
  obtain ⟨t, ht⟩ := hF
  change nodeAt s.core _ = some n at h2
  rw [← ht, nodeAt_append (hb a i h)] at h2
  rw [show (Atom.readNode a).run s = (.ok n, s) from readNode_some h1]
  refine ⟨Γg, D, .refl Γg, hi, rfl, hg, fun _ h => h, fun Γ' hl' _ => ⟨.ok n, ?_, rfl, h2⟩⟩
  have hn : idealNode (St.open F) i = some n := by simpa [idealNode, St.open] using h2
  have hr : idealAtom (St.open F) (.readNode i) = .ok n := by simp only [idealAtom, hn]
  exact .step ⟨hr.symm, rfl⟩ .pure

theorem simL_readNode {Γ : Names} {a i : Nat} (h : Γ a = some i) :
    SimL F mis (Prog.readNode a) (Prog.readNode i) Γ EqR :=
  (simL_readNode' h).imp fun _ _ _ h => h.1

theorem got_insert {D : Nat → Prop} {s : St} {q : Nat} {e : BlockEntry} (h : Got D s) :
    Got (also q D) { s with cache := cacheInsert q e s.cache } := by
  intro x hx
  simp only [cacheInsert]
  split
  · exact fun h => by cases h
  · rename_i hne
    exact h x (hx.resolve_left hne)

theorem getFromCore_none {s : St} {q : Nat} (h : s.io.readable q = false) : getFromCore q s = (.ok none, s) := by
  have hg : coreGet q s = (.ok none, s) := by simp [coreGet, h]
  unfold getFromCore
  rw [bind_ok hg]
  rfl

theorem simL_blocksGet {Γ : Names} {q : Nat} (hq : q < F.length) :
    SimL F mis (Prog.blocksGet q) (Prog.blocksGet q) Γ ERel := by
  intro D hb
  refine ⟨?_, fun q f r h => by cases h⟩
  intro Γ1 s1 hl1 hF1 hi1 hg1 hm1
  rw [show (Atom.cacheGet q).run s1 = (.ok (s1.cache q), s1) from rfl]
  cases hc : s1.cache q with
  | some e =>
    obtain ⟨b, h1, h2⟩ := hi1.ent q e hc
    obtain ⟨t, ht⟩ := hF1
    simp only [← ht, blockAt_append hq] at h1
    refine ⟨Γ1, also q D, .refl Γ1, hi1, rfl, ?_, fun _ h => h, fun Γ' hl' _ => ⟨_, .block (idealEntry_open h1), (erel_cut hq h2).mono hl'⟩⟩
    rintro x (rfl | hx)
    · simp [hc]
    · exact hg1 x hx
  | none =>
    have hD : ¬ D q := fun h => hg1 q h hc
    refine ⟨Γ1, D, .refl Γ1, hi1, rfl, hg1, fun _ h => h, ?_⟩
    intro hb2
    refine ⟨?_, ?_⟩
    · intro Γ2 s2 hl2 hF2 hi2 hg2 hm2
      obtain ⟨t, ht⟩ := hF2
      rw [show (Atom.coreFetch q).run s2 = getFromCore q s2 from rfl]
      cases hr2 : s2.io.readable q with
      | false =>
        rw [getFromCore_none hr2]
        refine ⟨Γ2, D, .refl Γ2, hi2, rfl, hg2, fun _ h => h, fun Γ' _ _ => ⟨_, .lostBlock (f := .missing) hD hq ?_, rfl⟩⟩
        refine Classical.byContradiction fun h => ?_
        rw [hm2 q rfl h] at hr2
        cases hr2
      | true =>
      have hx : F[q]? = some F[q] := List.getElem?_eq_getElem hq
      have hx2 : s2.core[q]? = some F[q] := by rw [← ht, List.getElem?_append_left hq, hx]
      cases hbl : blockOf F[q] with
      | none =>
        obtain ⟨xs, hf⟩ := getFromCore_err hr2 hx2 hbl
        rw [hf]
        exact ⟨Γ2, D, .refl Γ2, hi2.heap xs, rfl, hg2, fun _ h => h, fun Γ' hl' _ => ⟨_, .noBlock hD (idealEntry_open_err hx hbl), rfl⟩⟩
      | some b =>
        have hba : blockAt F q = some b := by simp [blockAt, hx, hbl]
        have hba2 : blockAt s2.core q = some b := by rw [← ht]; exact blockAt_append_some hba _
        rw [getFromCore_run hr2 hba2]
        obtain ⟨hle, hi3⟩ := hi2.load hba2
        have her : ERel (Γ2.load s2.heap.length b.nodes.length fun j => Nat.pair q j)
            ⟨List.range' s2.heap.length b.nodes.length, b.key, b.value⟩
            ⟨(List.range b.nodes.length).map fun j => Nat.pair q j, b.key, b.value⟩ :=
          ⟨rfl, rfl, forall2_load _ _ _ _⟩
        refine ⟨_, D, hle, hi3, rfl, hg2, fun _ h => h, ?_⟩
        intro hb4
        refine ⟨?_, fun q f r h => by cases h⟩
        intro Γ4 s4 hl4 hF4 hi4 hg4 hm4
        have her4 := (erel_cut hq her).mono hl4
        refine ⟨Γ4, also q D, .refl Γ4, ?_, rfl, got_insert hg4, fun x hx => got_insert (fun _ h => h) x (.inr hx), fun Γ5 hl5 _ =>
          ⟨_, .block (idealEntry_open hba), (erel_cut hq her4).mono hl5⟩⟩
        obtain ⟨t4, ht4⟩ := hF4
        exact hi4.file (by rw [← ht4]; exact blockAt_append_some hba _) her4
    · intro q' f r h1 h2 h3
      cases h1
      cases h3
      cases f with
      | io => exact fun Γ' _ _ => ⟨_, .lostBlock hD hq h2, rfl⟩
      | missing => exact fun Γ' _ _ => ⟨_, .lostBlock hD hq h2, rfl⟩

theorem simL_getTreeNode {Γ : Names} {e e' : BlockEntry} (h : ERel Γ e e') (o : Nat) :
    SimL F mis (Prog.getTreeNode e o) (Prog.getTreeNode e' o) Γ NameR := by
  have := forall2_rel h.nodes o
  unfold Prog.getTreeNode
  revert this
  cases e.nodes[o]? <;> cases e'.nodes[o]? <;> intro this
  · exact SimL.throw
  · nomatch this
  · nomatch this
  · cases this with
    | some h => exact SimL.pure fun Γ' hl => hl _ _ h

theorem simL_nth {Γ : Names} {site : String} (l : List α) (i : Nat) :
    SimL F mis (Prog.orPanic site l[i]?) (Prog.orPanic site l[i]?) Γ (fun _ a a' => a = a' ∧ a ∈ l) := by
  cases h : l[i]? with
  | none => exact SimL.throw
  | some a => exact SimL.pure fun _ _ => ⟨rfl, List.mem_of_getElem? h⟩

theorem simL_getChild (hin : Inward F) {Γ : Names} {a i : Nat} (h : Γ a = some i) (j : Nat) :
    SimL F mis (Prog.getChild a j) (Prog.getChild i j) Γ NameR := by
  unfold Prog.getChild
  refine SimL.bind (simL_readNode' h) ?_
  rintro Γ1 n _ h1 ⟨rfl, hn⟩
  refine SimL.under a i .read (SimL.bind (simL_nth _ _) ?_)
  rintro Γ2 c _ h2 ⟨rfl, hc⟩
  exact SimL.bind (simL_blocksGet ((hin _ _ hn).2 c hc)) fun Γ3 e e' h3 he => simL_getTreeNode he _

theorem simL_getKeyValue (hin : Inward F) {Γ : Names} {a i : Nat} (h : Γ a = some i) (j : Nat) :
    SimL F mis (Prog.getKeyValue a j) (Prog.getKeyValue i j) Γ EqR := by
  unfold Prog.getKeyValue
  refine SimL.bind (simL_readNode' h) ?_
  rintro Γ1 n _ h1 ⟨rfl, hn⟩
  refine SimL.under a i .read (SimL.bind (simL_nth _ _) ?_)
  rintro Γ2 q _ h2 ⟨rfl, hq⟩
  have hlt := (hin _ _ hn).1 q hq
  refine SimL.bind (simL_blocksGet hlt) fun Γ3 b1 b1' h3 he1 => ?_
  refine SimL.bind (simL_blocksGet hlt) fun Γ4 b2 b2' h4 he2 => ?_
  rw [he1.key, he2.value]
  exact SimL.pure fun _ _ => rfl

theorem simLLaws (hin : Inward F) : Laws fun _ p p' Γ R => SimL F mis p p' Γ R where
  pure h := SimL.pure h
  throw := SimL.throw
  bind h hf := SimL.bind h hf
  under a i m h := SimL.under a i m h
  tryResult h := SimL.tryResult h
  readNode h := simL_readNode h
  getChild h := simL_getChild hin h
  getKeyValue h := simL_getKeyValue hin h

/-! ## Descents -/

theorem simL_nearestNode (hin : Inward F) {Γ : Names} {a i : Nat} (h : Γ a = some i) (k : LimitValue)
    (hd : ideal (St.open F) (Prog.nearestNode i k) ≠ .error .diverge) :
    SimL F mis (Prog.nearestNode a k) (Prog.nearestNode i k) Γ FoundR := by
  have h0 : ideal (St.open F) (Prog.nearestNode i k) = ideal (St.open F) (Prog.nearestLoop k (stepBound F) i []) := rfl
  rw [h0] at hd
  intro D hb
  refine ⟨?_, fun q f r h => by cases h⟩
  intro Γg s hl hF hi hg _
  refine ⟨Γg, D, .refl Γg, hi, rfl, hg, fun _ h => h, ?_⟩
  have := (simLLaws (mis := mis) hin).nearestLoop k (stepBound s.core) a i [] [] (cut F Γg) (le_cut hb hl a i h) .nil D
  refine OkL.imp this ?_
  rintro Γ' D' r ⟨r', h1, h2⟩
  exact ⟨r', .step ⟨rfl, rfl⟩ (dream_nearestLoop_less k _ _ (stepBound_mono hF) i [] hd h1), h2⟩

/-! ## Calls, from their second step on -/

/-- What remains of a program whose first step asks for the length of the core. -/
def ThenL (F : List Bytes) (mis : Nat → Fault → Prop) (p : Prog α) (R : Names → α → α → Prop) : Prop :=
  ∃ k, p = .step .version k ∧ ∀ Γ, OkL F mis (k (.ok F.length)) Γ (fun _ => False)
    fun Γ' D' r => ∃ r', Dream F mis p (fun _ => False) r' D' ∧ RR R Γ' r r'

theorem thenL_version : ThenL F mis Prog.version EqR :=
  ⟨_, rfl, fun _ _ _ _ => ⟨.ok F.length, .step ⟨rfl, rfl⟩ .pure, rfl⟩⟩

theorem ThenL.bind' {p : Prog α} {f : α → Prog β} {R : Names → α → α → Prop} {S : Names → β → β → Prop}
    (h : ThenL F mis p R) (hf : ∀ Γ a i, R Γ a i → SimL F mis (f a) (f i) Γ S) :
    ThenL F mis (p >>= f) S := by
  obtain ⟨k, rfl, h⟩ := h
  refine ⟨fun r => Prog.bind (k r) f, rfl, fun Γ => ?_⟩
  refine OkL.bind (h Γ) ?_ ?_
  · rintro Γ' D' a hl ⟨r', h1, h2⟩
    obtain ⟨i, rfl, h2⟩ := h2.ok_inv
    refine OkL.imp (hf Γ' a i h2 D') ?_
    rintro Γ'' D'' r ⟨r'', h3, h4⟩
    exact ⟨r'', h1.bind_ok h3, h4⟩
  · rintro Γ' D' e hl ⟨r', h1, h2⟩
    cases h2.error_inv
    exact ⟨.error e, h1.bind_error, rfl⟩

theorem ThenL.bind {p : Prog α} {f : α → Prog β} {R : Names → α → α → Prop} {S : Names → β → β → Prop}
    (hdet : Det F mis α p)
    (h : ThenL F mis p R) (hf : ∀ Γ a i, ideal (St.open F) p = .ok i → R Γ a i → SimL F mis (f a) (f i) Γ S) :
    ThenL F mis (p >>= f) S := by
  obtain ⟨k, rfl, h⟩ := h
  refine ⟨fun r => Prog.bind (k r) f, rfl, fun Γ => ?_⟩
  refine OkL.bind (h Γ) ?_ ?_
  · rintro Γ' D' a hl ⟨r', h1, h2⟩
    obtain ⟨i, rfl, h2⟩ := h2.ok_inv
    have hid : ideal (St.open F) (.step .version k) = .ok i := by
      rcases hdet _ _ _ h1 with h | ⟨_, _, _, _, h⟩
      · exact h.symm
      · cases h
    refine OkL.imp (hf Γ' a i hid h2 D') ?_
    rintro Γ'' D'' r ⟨r'', h3, h4⟩
    exact ⟨r'', h1.bind_ok h3, h4⟩
  · rintro Γ' D' e hl ⟨r', h1, h2⟩
    cases h2.error_inv
    exact ⟨.error e, h1.bind_error, rfl⟩

theorem ThenL.replyOf {p : Prog α} {f : α → Reply} (h : ThenL F mis p EqR) : ThenL F mis (Prog.replyOf f p) EqR := by
  obtain ⟨k, rfl, h⟩ := h
  refine ⟨fun r => Prog.replyOf f (k r), rfl, fun Γ => ?_⟩
  refine OkL.imp (OkL.replyOf f (h Γ)) ?_
  rintro Γ' D' r ⟨r0, rfl, r', h1, h2⟩
  exact ⟨_, h1.replyOf f, rr_replied f h2⟩

theorem thenL_getRoot : ThenL F mis (Prog.getRoot false) RootR := by
  unfold Prog.getRoot
  refine thenL_version.bind det_acts.version ?_
  intro Γ v _ h0 hv
  cases hv
  cases h0
  split
  · split
    · rename_i h; simp at h
    · exact SimL.pure fun _ _ => Option.Rel.none
  · rename_i hv
    have hlt : F.length - 1 < F.length := by
      have hv : ¬ F.length ≤ 1 := hv
      omega
    refine SimL.bind (simL_blocksGet hlt) fun Γ2 e e' h2 he => ?_
    refine SimL.bind (simL_getTreeNode he _) fun Γ3 a i h3 ha => ?_
    exact SimL.pure fun Γ4 h4 => Option.Rel.some (h4 _ _ ha)

theorem thenL_get (hin : Inward F) (k : Bytes) (hd : ideal (St.open F) (Prog.get k) ≠ .error .diverge) :
    ThenL F mis (Prog.get k) EqR := by
  unfold Prog.get at hd ⊢
  refine thenL_getRoot.bind det_acts.getRoot_ ?_
  intro Γ1 r r' h1 hr
  rw [ideal_bind, h1] at hd
  cases hr with
  | none => exact SimL.pure fun _ _ => rfl
  | @some a i ha =>
    dsimp only at hd
    rw [ideal_bind] at hd
    refine SimL.bind (simL_nearestNode hin ha _ ?_) ?_
    · intro he
      rw [he] at hd
      exact hd rfl
    rintro Γ2 ⟨m, p⟩ ⟨m', p'⟩ h2 ⟨hm, hp⟩
    cases hm
    cases m with
    | none => exact SimL.pure fun _ _ => rfl
    | some q =>
      refine SimL.bind ((simLLaws hin).head hp) ?_
      rintro Γ3 ⟨a, j⟩ ⟨i, j'⟩ h3 ⟨ha3, hj⟩
      cases hj
      refine SimL.bind (simL_getKeyValue hin ha3 _) fun Γ4 kv kv' h4 hkv => ?_
      cases hkv
      exact SimL.pure fun _ _ => rfl

theorem thenL_traverseSession (hin : Inward F) (b : TraverseConfigBuilder) (rs : List Bool) (conf : TraverseConfig)
    (hb : b.build = .ok conf) : ThenL F mis (Prog.traverseSession b rs) EqR := by
  unfold Prog.traverseSession
  rw [hb]
  dsimp only
  unfold Prog.collect
  have h1 : ThenL F mis (Prog.traverse conf) (fun Γ => List.Forall₂ (FrameR Γ)) := by
    unfold Prog.traverse
    refine thenL_getRoot.bind det_acts.getRoot_ ?_
    intro Γ r r' _ hr
    cases hr with
    | none => exact SimL.throw
    | some ha => exact SimL.pure fun Γ2 h2 => .cons (frame_new (h2 _ _ ha) _) .nil
  refine ThenL.bind' (R := CollectedR) (h1.bind' fun Γ fs fs' hf => (simLLaws hin).drive rs fs fs' Γ hf) ?_
  rintro Γ2 ⟨xs, fin⟩ ⟨xs', fin'⟩ ⟨hxs, hfin⟩
  cases hxs
  cases hfin with
  | none => exact SimL.pure fun _ _ => rfl
  | some hh => exact SimL.pure fun _ _ => rfl

/-- A reading call asks for the length of the core first, or never reads. -/
theorem thenL_exec (hin : Inward F) {c : Cmd} (hc : c.looks = true)
    (hd : ideal (St.open F) (Prog.exec c) ≠ .ok (.error .diverge)) :
    ThenL F mis (Prog.exec c) EqR ∨ ∃ r, Prog.exec c = .pure r := by
  cases c with
  | version => exact .inl thenL_version.replyOf
  | get k =>
    refine .inl (ThenL.replyOf (thenL_get hin k ?_))
    intro he
    apply hd
    show ideal (St.open F) (Prog.replyOf _ (Prog.get k)) = _
    rw [ideal_replyOf, he]
  | traverse b rs =>
    cases hb : b.build with
    | error e =>
      refine .inr ⟨.error e, ?_⟩
      show Prog.replyOf _ (Prog.traverseSession b rs) = _
      unfold Prog.traverseSession
      rw [hb]
      rfl
    | ok conf => exact .inl (ThenL.replyOf (thenL_traverseSession hin b rs conf hb))
  | _ => cases hc

end Hyperbee
