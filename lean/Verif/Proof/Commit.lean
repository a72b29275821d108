import Verif.Proof.Sched
/-!
# When calls append

Every call appends to the core in its last step, apart from the header that a put creates first on
an empty core.
-/

namespace Hyperbee

/-- The step appends to the core. -/
def Atom.appends : Atom β → Bool
  | .coreAppend _ => true
  | .under _ _ x => x.appends
  | _ => false

/-- `P` is closed under composition and holds of the steps of readers, and of those that are taken
under a lock. -/
structure RActs (P : ∀ α : Type, Prog α → Prop) : Prop where
  pure : ∀ {α : Type} (a : α), P α (Pure.pure a)
  throw : ∀ {α : Type} (e : Err), P α (Prog.throw e)
  bind : ∀ {α β : Type} {m : Prog α} {f : α → Prog β}, P α m → (∀ a, P β (f a)) → P β (m >>= f)
  readNode : ∀ a, P _ (Prog.readNode a)
  getChild : ∀ a i, P _ (Prog.getChild a i)
  getKeyValue : ∀ a i, P _ (Prog.getKeyValue a i)
  version : P _ Prog.version
  descentFuel : P _ Prog.descentFuel
  blocksGet : ∀ q, P _ (Prog.blocksGet q)

/-- And of the steps of writers other than appending. -/
structure PActs (P : ∀ α : Type, Prog α → Prop) : Prop extends RActs P where
  edit : ∀ {β : Type} md a (f : Node → Except Err (β × Node)), P _ (Prog.edit md a f)
  alloc : ∀ n, P _ (Prog.alloc n)

/-- And of the step in which two locks are held. -/
structure DActs (P : ∀ α : Type, Prog α → Prop) : Prop extends PActs P where
  moveChildren : ∀ l r n, P _ (Prog.Side.moveChildren l r n)

/-- Discharges goals made of the rules above. -/
macro "pacts" h:ident "[" hs:term,* "]" : tactic => do
  let mut t ← `(tactic| fail)
  for h in hs.getElems do
    t ← `(tactic| first | exact $h | $t:tactic)
  `(tactic|
    repeat' (first
      | exact ($h).pure _
      | exact ($h).throw _
      | exact ($h).orPanic _ _
      | exact ($h).readNode _
      | exact ($h).edit _ _ _
      | exact ($h).getChild _ _
      | exact ($h).getKeyValue _ _
      | exact ($h).moveChildren _ _ _
      | exact ($h).alloc _
      | exact ($h).version
      | exact ($h).descentFuel
      | exact ($h).blocksGet _
      | $t:tactic
      | apply ($h).bind
      | intro _
      | split
      | dsimp only))

section
variable {P : ∀ α : Type, Prog α → Prop} (h : RActs P)
include h

theorem RActs.orPanic (site : String) (o : Option α) : P α (Prog.orPanic site o) := by
  cases o
  · exact h.throw _
  · exact h.pure _

theorem RActs.getTreeNode_ (e : BlockEntry) (o : Nat) : P _ (Prog.getTreeNode e o) := h.orPanic _ _

theorem RActs.getChild_ (a i : Nat) : P _ (Prog.getChild a i) := h.getChild a i

theorem RActs.isLeaf_ (a : Nat) : P _ (Prog.isLeaf a) := by unfold Prog.isLeaf; pacts h []

theorem RActs.getKeyValue_ (a i : Nat) : P _ (Prog.getKeyValue a i) := h.getKeyValue a i

theorem RActs.searchLoop_ (a : Nat) (k : LimitValue) : ∀ fuel lo hi, P _ (Prog.searchLoop a k fuel lo hi) := by
  intro fuel
  induction fuel with
  | zero => intro _ _; exact h.throw _
  | succ n ih => intro lo hi; unfold Prog.searchLoop; pacts h [ih _ _, h.getKeyValue_ _ _]

theorem RActs.getIndexOfKey_ (a : Nat) (k : LimitValue) : P _ (Prog.getIndexOfKey a k) := by
  unfold Prog.getIndexOfKey; pacts h [h.searchLoop_ _ _ _ _ _]

theorem RActs.nearestLoop_ (k : LimitValue) : ∀ fuel a p, P _ (Prog.nearestLoop k fuel a p) := by
  intro fuel
  induction fuel with
  | zero => intro _ _; exact h.throw _
  | succ n ih => intro a p; unfold Prog.nearestLoop; pacts h [ih _ _, h.getIndexOfKey_ _ _, h.isLeaf_ _, h.getChild_ _ _]

theorem RActs.nearestNode_ (a : Nat) (k : LimitValue) : P _ (Prog.nearestNode a k) := by
  unfold Prog.nearestNode; pacts h [h.nearestLoop_ _ _ _ _]

theorem RActs.takeChildrenWithSeq_ (a q : Nat) : P _ (Prog.takeChildrenWithSeq a q) := by
  unfold Prog.takeChildrenWithSeq; pacts h []

theorem RActs.readNodes_ : ∀ as, P _ (Prog.readNodes as) := by
  intro as
  induction as with
  | nil => exact h.pure _
  | cons a as ih => unfold Prog.readNodes; pacts h [ih]

theorem RActs.getRoot_ : P _ (Prog.getRoot false) := by
  unfold Prog.getRoot
  pacts h [h.blocksGet _, h.getTreeNode_ _ _]
  rename_i hh
  exact absurd hh.2 (by simp)

end

section
variable {P : ∀ α : Type, Prog α → Prop} (h : PActs P)
include h

theorem PActs.getDonorIndex_ (sd : Side) (f i : Nat) : P _ (Prog.Side.getDonorIndex sd f i) := by
  cases sd <;> unfold Prog.Side.getDonorIndex <;> pacts h []

theorem PActs.canRotate_ (sd : Side) (f i o : Nat) : P _ (Prog.Side.canRotate sd f i o) := by
  unfold Prog.Side.canRotate; pacts h [h.getDonorIndex_ _ _ _, h.getChild_ _ _]

theorem PActs.nodeInsert_ (a k : Nat) (cs : List Child) (i j : Nat) : P _ (Prog.nodeInsert a k cs i j) := by
  unfold Prog.nodeInsert; pacts h []

theorem PActs.reorderLoop_ (q : Nat) (ns : List Nat) : ∀ fuel st out, P _ (Prog.reorderLoop q ns fuel st out) := by
  intro fuel
  induction fuel with
  | zero => intro st out; cases st <;> unfold Prog.reorderLoop <;> pacts h []
  | succ n ih =>
    intro st out
    cases st with
    | nil => unfold Prog.reorderLoop; pacts h []
    | cons x st => unfold Prog.reorderLoop; pacts h [ih _ _, h.takeChildrenWithSeq_ _ _]

theorem PActs.reorderNodes_ (q : Nat) (ns : List Nat) : P _ (Prog.reorderNodes q ns) := by
  unfold Prog.reorderNodes; pacts h [h.takeChildrenWithSeq_ _ _, h.reorderLoop_ _ _ _ _ _]

theorem PActs.setChild_ (a i : Nat) (c : Child) : P _ (Prog.setChild a i c) := by unfold Prog.setChild; pacts h []

theorem PActs.propagate_ : ∀ p ch c, P _ (Prog.propagate ch p c) := by
  intro p
  induction p with
  | nil => intro _ _; exact h.pure _
  | cons x p ih => intro ch c; unfold Prog.propagate; pacts h [ih _ _, h.setChild_ _ _ _]

theorem PActs.split_ (a : Nat) : P _ (Prog.split a) := by unfold Prog.split; pacts h []

theorem PActs.putLoop_ (m : Bool) : ∀ p ch k cs, P _ (Prog.putLoop m p ch k cs) := by
  intro p
  induction p with
  | nil => intro _ _ _; unfold Prog.putLoop; pacts h []
  | cons x p ih =>
    intro ch k cs; unfold Prog.putLoop
    pacts h [ih _ _ _, h.nodeInsert_ _ _ _ _ _, h.propagate_ _ _ _, h.split_ _]

theorem PActs.replaceRemoved_ (p : NodePath) (n k : Nat) : P _ (Prog.replaceRemovedInternalKey p n k) := by
  unfold Prog.replaceRemovedInternalKey
  pacts h [h.getChild_ _ _, h.nearestNode_ _ _]

theorem PActs.getDonorKey_ (sd : Side) (f : Nat) : P _ (Prog.Side.getDonorKey sd f) := by
  cases sd <;> unfold Prog.Side.getDonorKey <;> pacts h []

theorem PActs.getDonorChild_ (sd : Side) (f : Nat) : P _ (Prog.Side.getDonorChild sd f) := by
  cases sd <;> unfold Prog.Side.getDonorChild <;> pacts h [h.isLeaf_ _]

theorem PActs.swapDonor_ (sd : Side) (f i k : Nat) : P _ (Prog.Side.swapDonorKeyInFather sd f i k) := by
  unfold Prog.Side.swapDonorKeyInFather; pacts h []

theorem PActs.insertDonations_ (sd : Side) (f k : Nat) (c : Option Child) : P _ (Prog.Side.insertDonations sd f k c) := by
  cases sd <;> unfold Prog.Side.insertDonations <;> pacts h []

theorem PActs.rotate_ (sd : Side) (f i d di dd : Nat) (ch : Changes) : P _ (Prog.Side.rotate sd f i d di dd ch) := by
  unfold Prog.Side.rotate
  pacts h [h.getDonorKey_ _ _, h.getDonorChild_ _ _, h.swapDonor_ _ _ _ _, h.insertDonations_ _ _ _ _,
    h.setChild_ _ _ _]

theorem PActs.maybeRotate_ (sd : Side) (f i d o : Nat) (ch : Changes) : P _ (Prog.Side.maybeRotate sd f i d o ch) := by
  unfold Prog.Side.maybeRotate; pacts h [h.canRotate_ _ _ _ _, h.rotate_ _ _ _ _ _ _ _]

end

section
variable {P : ∀ α : Type, Prog α → Prop} (h : DActs P)
include h

theorem DActs.maybeMerge_ (sd : Side) (f i d : Nat) (ch : Changes) : P _ (Prog.Side.maybeMerge sd f i d ch) := by
  cases sd <;> unfold Prog.Side.maybeMerge <;> pacts h [h.getDonorIndex_ _ _ _, h.getChild_ _ _]

theorem DActs.repairOne_ (f i d o : Nat) (ch : Changes) : P _ (Prog.repairOne f i d o ch) := by
  unfold Prog.repairOne; pacts h [h.maybeRotate_ _ _ _ _ _ _, h.maybeMerge_ _ _ _ _ _]

theorem DActs.repairLoop_ (o : Nat) : ∀ p f i d ch, P _ (Prog.repairLoop o p f i d ch) := by
  intro p
  induction p with
  | nil => intro f i d ch; unfold Prog.repairLoop; pacts h [h.repairOne_ _ _ _ _ _]
  | cons x p ih =>
    intro f i d ch
    unfold Prog.repairLoop; pacts h [h.repairOne_ _ _ _ _ _, ih _ _ _ _]

theorem DActs.repair_ (p : NodePath) (o : Nat) (ch : Changes) : P _ (Prog.repair p o ch) := by
  unfold Prog.repair; pacts h [h.getChild_ _ _, h.repairLoop_ _ _ _ _ _ _]

theorem DActs.delChanges_ (k : Bytes) (p : NodePath) : P _ (Prog.delChanges k p) := by
  unfold Prog.delChanges
  pacts h [h.isLeaf_ _, h.replaceRemoved_ _ _ _, h.repair_ _ _ _, h.propagate_ _ _ _]

theorem DActs.delPrepare_ (k : Bytes) (cas : KeyValueData → Bool) : P _ (Prog.delPrepare k cas) := by
  unfold Prog.delPrepare
  pacts h [h.getRoot_, h.nearestNode_ _ _, h.getKeyValue_ _ _, h.delChanges_ _ _]

end

/-! ## Appending last -/

/-- No step appends. -/
def NoApp (α : Type) : Prog α → Prop
  | .pure _ => True
  | .throw _ => True
  | .step x k => x.appends = false ∧ ∀ r, NoApp α (k r)

/-- The program has come to its end. -/
def Prog.ended : Prog α → Bool
  | .step _ _ => false
  | _ => true

/-- A step that appends is the last. -/
def Late : Prog α → Prop
  | .pure _ => True
  | .throw _ => True
  | .step x k => if x.appends then ∀ r, (k r).ended = true else ∀ r, Late (k r)

theorem NoApp.bind {p : Prog α} {f : α → Prog β} (h : NoApp α p) (hf : ∀ a, NoApp β (f a)) : NoApp β (p >>= f) := by
  induction p with
  | pure a => exact hf a
  | throw e => trivial
  | step x k ih => exact ⟨h.1, fun r => ih r (h.2 r)⟩

theorem noApp_lift (x : Atom β) (h : x.appends = false) : NoApp β (Prog.lift x) :=
  ⟨h, fun r => by cases r <;> trivial⟩

theorem NoApp.under {p : Prog α} (a : Addr) (md : Mode) (h : NoApp α p) : NoApp α (p.under a md) := by
  induction p with
  | pure _ => trivial
  | throw _ => trivial
  | step x k ih => exact ⟨h.1, fun r => ih r (h.2 r)⟩

theorem noApp_blocksGet (q : Nat) : NoApp _ (Prog.blocksGet q) := by
  unfold Prog.blocksGet
  refine NoApp.bind (noApp_lift _ rfl) fun o => ?_
  cases o with
  | some b => trivial
  | none =>
    refine NoApp.bind (noApp_lift _ rfl) fun o => ?_
    cases o with
    | none => trivial
    | some e => exact NoApp.bind (noApp_lift _ rfl) fun _ => trivial

theorem noApp_orPanic (site : String) (o : Option α) : NoApp α (Prog.orPanic site o) := by cases o <;> trivial

theorem noApp_acts : DActs NoApp where
  pure _ := trivial
  throw _ := trivial
  bind := NoApp.bind
  readNode _ := noApp_lift _ rfl
  edit _ _ _ := noApp_lift _ rfl
  moveChildren _ _ _ := NoApp.bind (noApp_lift _ rfl) fun _ => (noApp_lift _ rfl).under _ _
  getChild _ _ := NoApp.bind (noApp_lift _ rfl) fun _ => NoApp.under _ _
    (NoApp.bind (noApp_orPanic _ _) fun _ => NoApp.bind (noApp_blocksGet _) fun _ => noApp_orPanic _ _)
  getKeyValue _ _ := NoApp.bind (noApp_lift _ rfl) fun _ => NoApp.under _ _
    (NoApp.bind (noApp_orPanic _ _) fun _ => NoApp.bind (noApp_blocksGet _) fun _ =>
      NoApp.bind (noApp_blocksGet _) fun _ => trivial)
  alloc _ := noApp_lift _ rfl
  version := noApp_lift _ rfl
  descentFuel := noApp_lift _ rfl
  blocksGet := noApp_blocksGet

theorem late_bind {p : Prog α} {f : α → Prog β} (h : NoApp α p) (hf : ∀ a, Late (f a)) : Late (p >>= f) := by
  induction p with
  | pure a => exact hf a
  | throw e => trivial
  | step x k ih =>
    show if x.appends then _ else _
    rw [h.1]
    exact fun r => ih r (h.2 r)

theorem NoApp.late {p : Prog α} (h : NoApp α p) : Late p := by
  induction p with
  | pure a => trivial
  | throw e => trivial
  | step x k ih =>
    show if x.appends then _ else _
    rw [h.1]
    exact fun r => ih r (h.2 r)

theorem Late.then {p : Prog α} {f : α → Prog β} (h : Late p) (hf : ∀ a, (f a).ended = true) : Late (p >>= f) := by
  have hb : ∀ q : Prog α, q.ended = true → (q >>= f).ended = true := by
    intro q hq
    cases q with
    | pure a => exact hf a
    | throw e => rfl
    | step x k => cases hq
  induction p with
  | pure a =>
    have := hf a
    show Late (f a)
    revert this
    cases f a with
    | pure a => exact fun _ => trivial
    | throw e => exact fun _ => trivial
    | step x k => exact fun h => by cases h
  | throw e => trivial
  | step x k ih =>
    unfold Late at h
    show if x.appends then _ else _
    split at h
    · rename_i hx
      rw [if_pos hx]
      exact fun r => hb _ (h r)
    · rename_i hx
      rw [if_neg hx]
      exact fun r => ih r (h r)

theorem Late.replyOf {p : Prog α} (f : α → Reply) (h : Late p) : Late (Prog.replyOf f p) := by
  induction p with
  | pure a => trivial
  | throw e => trivial
  | step x k ih =>
    unfold Late at h
    show if x.appends then _ else _
    split at h
    · rename_i hx
      rw [if_pos hx]
      intro r
      have := h r
      show (Prog.replyOf f (k r)).ended = true
      revert this
      cases k r with
      | pure a => exact fun _ => rfl
      | throw e => exact fun _ => rfl
      | step x k => exact fun h => by cases h
    · rename_i hx
      rw [if_neg hx]
      exact fun r => ih r (h r)

theorem late_append (b : Bytes) : Late (Prog.coreAppend b) := by
  show if _ then _ else _
  exact fun r => by cases r <;> rfl

theorem late_addChanges (ch : Changes) : Late (Prog.addChanges ch) := by
  unfold Prog.addChanges
  exact late_bind (noApp_acts.reorderNodes_ _ _) fun _ => late_bind (noApp_acts.readNodes_ _) fun _ => late_append _

theorem late_commitPrepared (p : Prepared α) : Late (Prog.commitPrepared p) := by
  cases p with
  | done a => trivial
  | commit ch a => exact (late_addChanges ch).then fun _ => rfl

theorem late_createHeader (m : Option Metadata) : Late (Prog.createHeader m) := by
  unfold Prog.createHeader
  refine late_bind (noApp_acts.version) fun v => ?_
  split
  · trivial
  · exact late_append _

theorem late_delCas (k : Bytes) (cas : KeyValueData → Bool) : Late (Prog.delCompareAndSwap k cas) :=
  late_bind (noApp_acts.delPrepare_ k cas) fun _ => late_commitPrepared _

theorem late_del (k : Bytes) : Late (Prog.del k) := by
  unfold Prog.del
  refine (late_delCas _ _).then fun o => ?_
  cases o with
  | none => rfl
  | some x =>
    obtain ⟨d, q⟩ := x
    cases d <;> rfl

/-! ## The header first -/

/-- Ask for the length; if it is zero ask again and append the header; go on with `P`. -/
def HeaderFirst (P : Prog α → Prop) (p : Prog α) : Prop :=
  ∃ k1 k2 k3, p = .step .version k1 ∧ (∀ r, r ≠ .ok 0 → P (k1 r)) ∧ k1 (.ok 0) = .step .version k2 ∧
    k2 (.ok 0) = .step (.coreAppend headerBlock) k3 ∧ ∀ r, P (k3 r)

theorem HeaderFirst.bind {P : Prog α → Prop} {R : Prog β → Prop} {p : Prog α} {f : α → Prog β} (h : HeaderFirst P p)
    (hf : ∀ q, P q → R (q >>= f)) : HeaderFirst R (p >>= f) := by
  obtain ⟨k1, k2, k3, rfl, h1, h2, h3, h4⟩ := h
  refine ⟨fun r => k1 r >>= f, fun r => k2 r >>= f, fun r => k3 r >>= f, rfl, fun r hr => hf _ (h1 r hr), ?_, ?_,
    fun r => hf _ (h4 r)⟩
  · show k1 (.ok 0) >>= f = _
    rw [h2]; rfl
  · show k2 (.ok 0) >>= f = _
    rw [h3]; rfl

theorem HeaderFirst.replyOf {p : Prog α} (f : α → Reply) (h : HeaderFirst Late p) : HeaderFirst Late (Prog.replyOf f p) := by
  obtain ⟨k1, k2, k3, rfl, h1, h2, h3, h4⟩ := h
  refine ⟨fun r => (k1 r).replyOf f, fun r => (k2 r).replyOf f, fun r => (k3 r).replyOf f, rfl,
    fun r hr => (h1 r hr).replyOf f, ?_, ?_, fun r => (h4 r).replyOf f⟩
  · show (k1 (.ok 0)).replyOf f = _
    rw [h2]; rfl
  · show (k2 (.ok 0)).replyOf f = _
    rw [h3]; rfl

theorem hfirst_getRoot : HeaderFirst (NoApp _) (Prog.getRoot true) := by
  refine ⟨_, _, _, rfl, ?_, rfl, rfl, ?_⟩
  · intro r hr
    cases r with
    | error e => trivial
    | ok v =>
      show NoApp _ (if v ≤ 1 then _ else _)
      split
      · split
        · rename_i h
          exact absurd (by rw [h.1]) hr
        · trivial
      · exact NoApp.bind (noApp_blocksGet _) fun b => NoApp.bind (noApp_acts.getTreeNode_ _ _) fun _ => trivial
  · intro r
    cases r with
    | ok n => trivial
    | error e => cases e <;> trivial

theorem hfirst_putCas (k : Bytes) (v : Option Bytes) (cas : Option KeyValueData → KeyValueData → Bool) :
    HeaderFirst Late (Prog.putCompareAndSwap k v cas) := by
  unfold Prog.putCompareAndSwap
  refine HeaderFirst.bind (P := NoApp _) ?_ fun q hq => late_bind hq fun _ => late_commitPrepared _
  unfold Prog.putPrepare
  refine HeaderFirst.bind hfirst_getRoot fun q hq => NoApp.bind hq fun o => ?_
  pacts noApp_acts [noApp_acts.nearestNode_ _ _, noApp_acts.getKeyValue_ _ _, noApp_acts.putLoop_ _ _ _ _ _]

theorem hfirst_put (k : Bytes) (v : Option Bytes) : HeaderFirst Late (Prog.put k v) := by
  unfold Prog.put
  refine (hfirst_putCas _ _ _).bind fun q hq => hq.then fun r => ?_
  obtain ⟨a, b⟩ := r
  cases b <;> rfl

/-! ## What has been appended when a call has not ended -/

theorem getFromCore_keeps (q : Nat) : Keeps (getFromCore q) := by
  unfold getFromCore blockEntryNew makeNodeVec
  keeps [allocLevels_keeps _]

theorem Atom.core_noApp {x : Atom β} (h : x.appends = false) (s : St) :
    (x.run s).2.core = s.core ∧ (x.run s).2.io = s.io := by
  induction x with
  | version => exact Keeps.version.at_ s
  | descentFuel => exact Keeps.descentFuel.at_ s
  | cacheGet q => exact (Keeps.getFromCache q).at_ s
  | coreFetch q => exact (getFromCore_keeps q).at_ s
  | cacheInsert q e => exact ⟨rfl, rfl⟩
  | readNode a => exact (Keeps.readNode a).at_ s
  | edit md a f =>
    refine Keeps.at_ (m := Hyperbee.edit a f) ?_ s
    unfold Hyperbee.edit
    keeps []
  | lockChildren a => exact ⟨rfl, rfl⟩
  | moveChildren l r n => exact (moveChildren_keeps l r n).at_ s
  | under a md x ih => exact ih h
  | alloc n => exact (Keeps.alloc n).at_ s
  | coreAppend b => cases h

theorem after_ended {p : Prog α} (h : p.ended = true) (n : Nat) (s : St) : Prog.after n p s = (p, s) := by
  induction n with
  | zero => rfl
  | succ n ih =>
    cases p with
    | pure a => exact ih
    | throw e => exact ih
    | step x k => cases h

theorem after_late {p : Prog α} (h : Late p) (n : Nat) (s : St) (hn : (Prog.after n p s).1.ended = false) :
    (Prog.after n p s).2.core = s.core := by
  induction n generalizing p s with
  | zero => rfl
  | succ n ih =>
    cases p with
    | pure a => rw [after_ended rfl]
    | throw e => rw [after_ended rfl]
    | step x k =>
      rw [show Prog.after (n + 1) (.step x k) s = Prog.after n (k (x.run s).1) (x.run s).2 from rfl] at hn ⊢
      unfold Late at h
      split at h
      · rw [after_ended (h _), h _] at hn
        cases hn
      · rename_i hx
        rw [ih (h _) _ hn, (Atom.core_noApp (by simpa using hx) s).1]

theorem after_hfirst {p : Prog α} (h : HeaderFirst Late p) (n : Nat) (s : St) (hok : s.io.appendOk = true)
    (hn : (Prog.after n p s).1.ended = false) :
    (Prog.after n p s).2.core = s.core ∨ s.core = [] ∧ (Prog.after n p s).2.core = [headerBlock] := by
  obtain ⟨k1, k2, k3, rfl, h1, h2, h3, h4⟩ := h
  cases n with
  | zero => exact .inl rfl
  | succ n =>
    rw [show Prog.after (n + 1) (.step .version k1) s = Prog.after n (k1 (.ok s.core.length)) s from rfl] at hn ⊢
    by_cases h0 : s.core = []
    · rw [show s.core.length = 0 by rw [h0]; rfl, h2] at hn ⊢
      cases n with
      | zero => exact .inl rfl
      | succ n =>
        rw [show Prog.after (n + 1) (.step .version k2) s = Prog.after n (k2 (.ok s.core.length)) s from rfl] at hn ⊢
        rw [show s.core.length = 0 by rw [h0]; rfl, h3] at hn ⊢
        cases n with
        | zero => exact .inl rfl
        | succ n =>
          right
          refine ⟨h0, ?_⟩
          rw [show Prog.after (n + 1) (.step (.coreAppend headerBlock) k3) s =
            Prog.after n (k3 (coreAppend headerBlock s).1) (coreAppend headerBlock s).2 from rfl] at hn ⊢
          rw [after_late (h4 _) _ _ hn]
          simp [coreAppend, hok, h0]
    · left
      refine after_late (h1 _ ?_) _ _ hn
      intro h
      exact h0 (List.eq_nil_of_length_eq_zero (Except.ok.inj h))

/-! ## Calls -/

theorem after_eq_interleave (p : Prog α) : ∀ (n : Nat) (s : St),
    Prog.interleave (List.replicate n 0) [p] s = ([(Prog.after n p s).1], (Prog.after n p s).2) := by
  intro n
  induction n generalizing p with
  | zero => intro s; rfl
  | succ n ih =>
    intro s
    rw [List.replicate_succ]
    exact ih (p.next s).1 (p.next s).2

/-- While a call has not ended, the core is as it was, or has its header. -/
theorem after_exec {s : St} (h : Rooms s) (hok : s.io.appendOk = true) (c : Cmd) (n : Nat)
    (hn : (Prog.after n (Prog.exec c) s).1.ended = false) :
    (Prog.after n (Prog.exec c) s).2.core = s.core ∨
    s.core = [] ∧ (∃ k v, c = .put k v ∨ ∃ cas, c = .putCas k v cas) ∧
      (Prog.after n (Prog.exec c) s).2.core = [headerBlock] := by
  have hl : c.looks = true → (Prog.after n (Prog.exec c) s).2.core = s.core := by
    intro hl
    obtain ⟨Γ, _, hi, _⟩ := interleave_ok (s0 := s) (esc := false) (Q := fun _ _ _ => True)
      (List.replicate n 0) [Prog.exec c] s _ (by
        intro i p hp
        cases i with
        | zero => cases hp; exact Ok.imp (sim_exec (s0 := s) (esc := false) hl) fun _ _ _ _ => trivial
        | succ i => cases hp) (inv_start h) (fun h => by cases h)
    rw [after_eq_interleave] at hi
    exact hi.core
  cases c with
  | version => exact .inl (hl rfl)
  | get k => exact .inl (hl rfl)
  | traverse b rs => exact .inl (hl rfl)
  | put k v =>
    rcases after_hfirst ((hfirst_put k v).replyOf _) n s hok hn with h | ⟨h1, h2⟩
    · exact .inl h
    · exact .inr ⟨h1, ⟨k, v, .inl rfl⟩, h2⟩
  | putCas k v cas =>
    rcases after_hfirst ((hfirst_putCas k v cas).replyOf _) n s hok hn with h | ⟨h1, h2⟩
    · exact .inl h
    · exact .inr ⟨h1, ⟨k, v, .inr ⟨cas, rfl⟩⟩, h2⟩
  | del k => exact .inl (after_late ((late_del k).replyOf _) n s hn)
  | delCas k cas => exact .inl (after_late ((late_delCas k cas).replyOf _) n s hn)
  | createHeader m => exact .inl (after_late ((late_createHeader m).replyOf _) n s hn)
  | reopen => rw [after_ended rfl] at hn; cases hn

/-! ## Calls one after the other -/

theorem after_run {p : Prog α} {n : Nat} {s : St} {r : α} (h : (Prog.after n p s).1.result = some r) :
    p.run s = (.ok r, (Prog.after n p s).2) := by
  induction n generalizing p s with
  | zero =>
    cases p with
    | pure a => cases h; rfl
    | throw e => cases h
    | step x k => cases h
  | succ n ih =>
    cases p with
    | pure a => rw [after_ended rfl] at h ⊢; cases h; rfl
    | throw e => rw [after_ended rfl] at h; cases h
    | step x k => exact ih h

theorem interleave_append (a b : List Nat) (ps : List (Prog α)) (s : St) :
    Prog.interleave (a ++ b) ps s = Prog.interleave b (Prog.interleave a ps s).1 (Prog.interleave a ps s).2 := by
  induction a generalizing ps s with
  | nil => rfl
  | cons i a ih =>
    rw [List.cons_append]
    simp only [Prog.interleave]
    cases ps[i]? with
    | none => exact ih _ _
    | some p => exact ih _ _

theorem interleave_replicate {i : Nat} {ps : List (Prog α)} {p : Prog α} (h : ps[i]? = some p) (n : Nat) (s : St) :
    Prog.interleave (List.replicate n i) ps s = (ps.set i (Prog.after n p s).1, (Prog.after n p s).2) := by
  induction n generalizing ps p s with
  | zero =>
    obtain ⟨hlt, rfl⟩ := List.getElem?_eq_some_iff.mp h
    show (ps, s) = _
    rw [show Prog.after 0 ps[i] s = (ps[i], s) from rfl, List.set_getElem_self]
  | succ n ih =>
    have hlt := (List.getElem?_eq_some_iff.mp h).1
    rw [List.replicate_succ]
    unfold Prog.interleave
    rw [h]
    show Prog.interleave (List.replicate n i) (ps.set i (p.next s).1) (p.next s).2 = _
    rw [ih (p := (p.next s).1) (by simp [hlt])]
    rw [List.set_set]
    rfl

theorem interleave_length (sched : List Nat) (ps : List (Prog α)) (s : St) :
    (Prog.interleave sched ps s).1.length = ps.length := by
  induction sched generalizing ps s with
  | nil => rfl
  | cons j js ih =>
    unfold Prog.interleave
    split
    · exact ih _ _
    · rw [ih]; simp

theorem interleave_keeps (sched : List Nat) (ps : List (Prog α)) (s : St) (i : Nat) (h : ∀ j ∈ sched, j ≠ i) :
    (Prog.interleave sched ps s).1[i]? = ps[i]? := by
  induction sched generalizing ps s with
  | nil => rfl
  | cons j js ih =>
    unfold Prog.interleave
    split
    · exact ih _ _ fun j hj => h j (by simp [hj])
    · rw [ih _ _ fun j hj => h j (by simp [hj]), List.getElem?_set_ne (h j (by simp))]

/-- Number `k` takes so many steps, then number `k + 1`, and so on. -/
def inTurn : Nat → List Nat → List Nat
  | _, [] => []
  | k, n :: ns => List.replicate n k ++ inTurn (k + 1) ns

theorem inTurn_ne (k i : Nat) (ns : List Nat) (h : i < k) : ∀ j ∈ inTurn k ns, j ≠ i := by
  induction ns generalizing k with
  | nil => intro j hj; cases hj
  | cons n ns ih =>
    intro j hj
    rcases List.mem_append.mp hj with h1 | h1
    · have := (List.mem_replicate.mp h1).2
      omega
    · exact ih (k + 1) (by omega) j h1

theorem inTurn_run (cs : List Cmd) (hc : ∀ c ∈ cs, c ≠ .reopen) : ∀ (ns : List Nat) (s : St) (ps : List (Prog Reply))
    (rs : List Reply), ns.length = cs.length →
    (Prog.interleave (inTurn ps.length ns) (ps ++ cs.map Prog.exec) s).1.map Prog.result =
      ps.map Prog.result ++ rs.map some →
    rs = runReplies cs s ∧
      (Prog.interleave (inTurn ps.length ns) (ps ++ cs.map Prog.exec) s).2 = runSt cs s := by
  induction cs with
  | nil =>
    intro ns s ps rs hn h
    cases ns with
    | cons n ns => cases hn
    | nil =>
      simp only [inTurn, List.map_nil, List.append_nil, Prog.interleave] at h ⊢
      have := (List.self_eq_append_right.mp h)
      exact ⟨(by simpa using this : rs = []), rfl⟩
  | cons c cs ih =>
    intro ns s ps rs hn h
    cases ns with
    | nil => cases hn
    | cons n ns =>
      have hp : (ps ++ (c :: cs).map Prog.exec)[ps.length]? = some (Prog.exec c) := by simp
      have hset : ((ps ++ (c :: cs).map Prog.exec).set ps.length (Prog.after n (Prog.exec c) s).1)
          = (ps ++ [(Prog.after n (Prog.exec c) s).1]) ++ cs.map Prog.exec := by simp
      rw [show inTurn ps.length (n :: ns) = List.replicate n ps.length ++ inTurn (ps.length + 1) ns from rfl,
        interleave_append, interleave_replicate hp, hset] at h ⊢
      have hlen : ps.length + 1 = (ps ++ [(Prog.after n (Prog.exec c) s).1]).length := by simp
      rw [hlen] at h ⊢
      cases rs with
      | nil =>
        have := congrArg List.length h
        rw [List.length_map, interleave_length] at this
        simp at this
      | cons r rs =>
        have hkeep := interleave_keeps (inTurn (ps ++ [(Prog.after n (Prog.exec c) s).1]).length ns)
          ((ps ++ [(Prog.after n (Prog.exec c) s).1]) ++ cs.map Prog.exec) (Prog.after n (Prog.exec c) s).2
          ps.length (inTurn_ne _ _ _ (by simp))
        have hres : (Prog.after n (Prog.exec c) s).1.result = some r := by
          have := congrArg (fun l => l[ps.length]?) h
          simp only [List.getElem?_map, hkeep] at this
          simpa using this
        have hrun := after_run hres
        rw [run_exec c (hc c (by simp))] at hrun
        have e1 : (exec c s).1 = r := by
          have := congrArg Prod.fst hrun; exact Except.ok.inj this
        have e2 : (exec c s).2 = (Prog.after n (Prog.exec c) s).2 := congrArg Prod.snd hrun
        obtain ⟨i1, i2⟩ := ih (fun c' hc' => hc c' (by simp [hc'])) ns (Prog.after n (Prog.exec c) s).2
          (ps ++ [(Prog.after n (Prog.exec c) s).1]) rs (by simpa using hn) (by
            rw [h, List.map_append, List.map_singleton, hres]; simp)
        refine ⟨?_, ?_⟩
        · rw [i1, ← e1, ← e2]; rfl
        · rw [i2, ← e2]; rfl

end Hyperbee
