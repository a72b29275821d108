import Verif.Proof.Append
/-!
# Properties closed under composition

`Reads P` and `Acts P` say that a property of computations is closed under composition and holds
of the primitives of reading, and of writing too.  Then it holds of every operation.
-/

namespace Hyperbee

/-- `P` is closed under composition and holds of everything that reads; errors end the computation. -/
structure Looks (P : ∀ α : Type, M α → Prop) : Prop where
  pure : ∀ {α : Type} (a : α), P α (Pure.pure a)
  throw : ∀ {α : Type} (e : Err), P α (Hyperbee.throw e)
  bind : ∀ {α β : Type} {m : M α} {f : α → M β}, P α m → (∀ a, P β (f a)) → P β (m >>= f)
  readNode : ∀ a, P _ (Hyperbee.readNode a)
  version : P _ Hyperbee.version
  descentFuel : P _ Hyperbee.descentFuel
  blocksGet : ∀ q, P _ (Hyperbee.blocksGet q)

/-- As `Looks`, and errors may be caught. -/
structure Reads (P : ∀ α : Type, M α → Prop) : Prop extends Looks P where
  tryResult : ∀ {α : Type} {m : M α}, P α m → P _ (Hyperbee.tryResult m)

/-- `P` is closed under composition and holds of everything that reads or writes; errors end the
computation. -/
structure Acts (P : ∀ α : Type, M α → Prop) : Prop extends Looks P where
  writeNode : ∀ a n, P _ (Hyperbee.writeNode a n)
  alloc : ∀ n, P _ (Hyperbee.alloc n)
  coreAppend : ∀ b, P _ (Hyperbee.coreAppend b)
  ensureHeader : P _ Hyperbee.ensureHeader

/-- Discharges goals made of the rules above; `hyps` are tried as they are. -/
macro "reads" h:ident "[" hs:term,* "]" : tactic => do
  let mut t ← `(tactic| fail)
  for h in hs.getElems do
    t ← `(tactic| first | exact $h | $t:tactic)
  `(tactic|
    repeat' (first
      | exact ($h).pure _
      | exact ($h).throw _
      | exact ($h).orPanic _ _
      | exact ($h).readNode _
      | exact ($h).version
      | exact ($h).descentFuel
      | exact ($h).blocksGet _
      | $t:tactic
      | apply ($h).tryResult
      | apply ($h).bind
      | intro _
      | split
      | dsimp only))

/-- As `reads`, with writing. -/
macro "acts" h:ident "[" hs:term,* "]" : tactic => do
  let mut t ← `(tactic| fail)
  for h in hs.getElems do
    t ← `(tactic| first | exact $h | $t:tactic)
  `(tactic|
    repeat' (first
      | exact ($h).pure _
      | exact ($h).throw _
      | exact ($h).toLooks.orPanic _ _
      | exact ($h).readNode _
      | exact ($h).writeNode _ _
      | exact ($h).alloc _
      | exact ($h).version
      | exact ($h).descentFuel
      | exact ($h).blocksGet _
      | exact ($h).coreAppend _
      | exact ($h).ensureHeader
      | $t:tactic
      | apply ($h).bind
      | intro _
      | split
      | dsimp only))

section
variable {P : ∀ α : Type, M α → Prop} (h : Looks P)
include h

theorem Looks.orPanic (site : String) (o : Option α) : P α (Hyperbee.orPanic site o) := by
  cases o
  · exact h.throw _
  · exact h.pure _

theorem Looks.getTreeNode_ (e : BlockEntry) (o : Nat) : P _ (getTreeNode e o) := h.orPanic _ _

theorem Looks.getChild_ (a i : Nat) : P _ (getChild a i) := by
  unfold getChild; reads h [h.blocksGet _, h.getTreeNode_ _ _]

theorem Looks.isLeaf_ (a : Nat) : P _ (isLeaf a) := by unfold isLeaf; reads h []

theorem Looks.getKeyValue_ (a i : Nat) : P _ (getKeyValue a i) := by
  unfold getKeyValue; reads h [h.blocksGet _]

theorem Looks.searchLoop_ (a : Nat) (k : LimitValue) : ∀ fuel lo hi, P _ (searchLoop a k fuel lo hi) := by
  intro fuel
  induction fuel with
  | zero => intro _ _; exact h.throw _
  | succ n ih => intro lo hi; unfold searchLoop; reads h [ih _ _, h.getKeyValue_ _ _]

theorem Looks.getIndexOfKey_ (a : Nat) (k : LimitValue) : P _ (getIndexOfKey a k) := by
  unfold getIndexOfKey; reads h [h.searchLoop_ _ _ _ _ _]

theorem Looks.nearestLoop_ (k : LimitValue) : ∀ fuel a p, P _ (nearestLoop k fuel a p) := by
  intro fuel
  induction fuel with
  | zero => intro _ _; exact h.throw _
  | succ n ih => intro a p; unfold nearestLoop; reads h [ih _ _, h.getIndexOfKey_ _ _, h.isLeaf_ _, h.getChild_ _ _]

theorem Looks.nearestNode_ (a : Nat) (k : LimitValue) : P _ (nearestNode a k) := by
  unfold nearestNode; reads h [h.nearestLoop_ _ _ _ _]

theorem Looks.takeChildrenWithSeq_ (a q : Nat) : P _ (takeChildrenWithSeq a q) := by
  unfold takeChildrenWithSeq; reads h []

theorem Looks.readNodes_ : ∀ as, P _ (readNodes as) := by
  intro as
  induction as with
  | nil => exact h.pure _
  | cons a as ih => unfold readNodes; reads h [ih]

theorem Looks.getRoot_ : P _ (getRoot false) := by
  unfold getRoot
  reads h [h.blocksGet _, h.getTreeNode_ _ _]
  rename_i hh
  exact absurd hh.2 (by simp)

theorem Looks.get_ (k : Bytes) : P _ (get k) := by
  unfold get; reads h [h.getRoot_, h.nearestNode_ _ _, h.getKeyValue_ _ _]

theorem Looks.getDonorIndex_ (sd : Side) (f i : Nat) : P _ (sd.getDonorIndex f i) := by
  cases sd <;> unfold Side.getDonorIndex <;> reads h []

theorem Looks.canRotate_ (sd : Side) (f i o : Nat) : P _ (sd.canRotate f i o) := by
  unfold Side.canRotate; reads h [h.getDonorIndex_ _ _ _, h.getChild_ _ _]

theorem Looks.makeIter_ (conf : TraverseConfig) (a nk nc : Nat) : P _ (makeChildKeyIndexIter conf a nk nc) := by
  unfold makeChildKeyIndexIter; reads h [h.getIndexOfKey_ _ _]

theorem Looks.traverse_ (conf : TraverseConfig) : P _ (traverse conf) := by
  unfold traverse; reads h [h.getRoot_]

end

section
variable {P : ∀ α : Type, M α → Prop} (h : Reads P)
include h

theorem Reads.pollSetup_ (r : Bool) (f : Frame) : P _ (pollSetup r f) := by
  unfold pollSetup; reads h [h.makeIter_ _ _ _ _]

theorem Reads.poll_ (r : Bool) : ∀ fs, P _ (poll r fs) := by
  intro fs
  induction fs with
  | nil => exact h.throw _
  | cons f fs ih =>
    cases fs with
    | nil => unfold poll; reads h [h.getKeyValue_ _ _, h.getChild_ _ _, h.pollSetup_ _ _]
    | cons g gs => unfold poll; reads h [h.getKeyValue_ _ _, h.getChild_ _ _, ih]

theorem Reads.drive_ {post : Except Err KeyValueData → M β} (hp : ∀ x, P _ (post x)) :
    ∀ rs fs, P _ (drive post rs fs) := by
  intro rs
  induction rs with
  | nil => intro fs; exact h.pure _
  | cons r rs ih => intro fs; unfold drive; reads h [h.poll_ _ _, hp _, ih _]

theorem Reads.traverseSession_ (b : TraverseConfigBuilder) (sched : List Bool) : P _ (traverseSession b sched) := by
  unfold traverseSession collect
  reads h [h.traverse_ _, h.drive_ (fun x => h.pure x) _ _]


end

section
variable {P : ∀ α : Type, M α → Prop} (h : Acts P)
include h

theorem Acts.nodeInsert_ (a k : Nat) (cs : List Child) (i j : Nat) : P _ (nodeInsert a k cs i j) := by
  unfold nodeInsert; acts h []

theorem Acts.reorderLoop_ (q : Nat) (ns : List Nat) : ∀ fuel st out, P _ (reorderLoop q ns fuel st out) := by
  intro fuel
  induction fuel with
  | zero => intro st out; cases st <;> unfold reorderLoop <;> acts h []
  | succ n ih =>
    intro st out
    cases st with
    | nil => unfold reorderLoop; acts h []
    | cons x st => unfold reorderLoop; acts h [ih _ _, h.toLooks.takeChildrenWithSeq_ _ _]

theorem Acts.reorderNodes_ (q : Nat) (ns : List Nat) : P _ (reorderNodes q ns) := by
  unfold reorderNodes; acts h [h.toLooks.takeChildrenWithSeq_ _ _, h.reorderLoop_ _ _ _ _ _]

theorem Acts.setChild_ (a i : Nat) (c : Child) : P _ (setChild a i c) := by unfold setChild; acts h []

theorem Acts.propagate_ : ∀ p ch c, P _ (propagate ch p c) := by
  intro p
  induction p with
  | nil => intro _ _; exact h.pure _
  | cons x p ih => intro ch c; unfold propagate; acts h [ih _ _, h.setChild_ _ _ _]

theorem Acts.split_ (a : Nat) : P _ (split a) := by unfold split; acts h []

theorem Acts.putLoop_ (m : Bool) : ∀ p ch k cs, P _ (putLoop m p ch k cs) := by
  intro p
  induction p with
  | nil => intro _ _ _; unfold putLoop; acts h []
  | cons x p ih =>
    intro ch k cs; unfold putLoop
    acts h [ih _ _ _, h.nodeInsert_ _ _ _ _ _, h.propagate_ _ _ _, h.split_ _]

theorem Acts.replaceRemoved_ (p : NodePath) (n k : Nat) : P _ (replaceRemovedInternalKey p n k) := by
  unfold replaceRemovedInternalKey
  acts h [h.toLooks.getChild_ _ _, h.toLooks.nearestNode_ _ _]

theorem Acts.getDonorKey_ (sd : Side) (f : Nat) : P _ (sd.getDonorKey f) := by
  cases sd <;> unfold Side.getDonorKey <;> acts h []

theorem Acts.getDonorChild_ (sd : Side) (f : Nat) : P _ (sd.getDonorChild f) := by
  cases sd <;> unfold Side.getDonorChild <;> acts h [h.toLooks.isLeaf_ _]

theorem Acts.swapDonor_ (sd : Side) (f i k : Nat) : P _ (sd.swapDonorKeyInFather f i k) := by
  unfold Side.swapDonorKeyInFather; acts h []

theorem Acts.insertDonations_ (sd : Side) (f k : Nat) (c : Option Child) : P _ (sd.insertDonations f k c) := by
  cases sd <;> unfold Side.insertDonations <;> acts h []

theorem Acts.rotate_ (sd : Side) (f i d di dd : Nat) (ch : Changes) : P _ (sd.rotate f i d di dd ch) := by
  unfold Side.rotate
  acts h [h.getDonorKey_ _ _, h.getDonorChild_ _ _, h.swapDonor_ _ _ _ _, h.insertDonations_ _ _ _ _,
    h.setChild_ _ _ _]

theorem Acts.maybeRotate_ (sd : Side) (f i d o : Nat) (ch : Changes) : P _ (sd.maybeRotate f i d o ch) := by
  unfold Side.maybeRotate; acts h [h.toLooks.canRotate_ _ _ _ _, h.rotate_ _ _ _ _ _ _ _]

theorem Acts.moveChildren_ (l r n : Nat) : P _ (Side.moveChildren l r n) := by
  unfold Side.moveChildren; acts h []

theorem Acts.maybeMerge_ (sd : Side) (f i d : Nat) (ch : Changes) : P _ (sd.maybeMerge f i d ch) := by
  cases sd <;> unfold Side.maybeMerge <;> acts h [h.moveChildren_ _ _ _, h.toLooks.getDonorIndex_ _ _ _, h.toLooks.getChild_ _ _]

theorem Acts.repairOne_ (f i d o : Nat) (ch : Changes) : P _ (repairOne f i d o ch) := by
  unfold repairOne; acts h [h.maybeRotate_ _ _ _ _ _ _, h.maybeMerge_ _ _ _ _ _]

theorem Acts.repairLoop_ (o : Nat) : ∀ p f i d ch, P _ (repairLoop o p f i d ch) := by
  intro p
  induction p with
  | nil => intro f i d ch; unfold repairLoop; acts h [h.repairOne_ _ _ _ _ _]
  | cons x p ih =>
    intro f i d ch
    unfold repairLoop; acts h [h.repairOne_ _ _ _ _ _, ih _ _ _ _]
    rename_i heq _
    cases heq
    exact ih _ _ _ _

theorem Acts.repair_ (p : NodePath) (o : Nat) (ch : Changes) : P _ (repair p o ch) := by
  unfold repair; acts h [h.toLooks.getChild_ _ _, h.repairLoop_ _ _ _ _ _ _]

theorem Acts.delChanges_ (k : Bytes) (p : NodePath) : P _ (delChanges k p) := by
  unfold delChanges
  acts h [h.toLooks.isLeaf_ _, h.replaceRemoved_ _ _ _, h.repair_ _ _ _, h.propagate_ _ _ _]

theorem Acts.delPrepare_ (k : Bytes) (cas : KeyValueData → Bool) : P _ (delPrepare k cas) := by
  unfold delPrepare
  acts h [h.toLooks.getRoot_, h.toLooks.nearestNode_ _ _, h.toLooks.getKeyValue_ _ _, h.delChanges_ _ _]

theorem Acts.getRootTrue_ : P _ (getRoot true) := by
  unfold getRoot; acts h [h.toLooks.getTreeNode_ _ _]

theorem Acts.createHeader_ (m : Option Metadata) : P _ (createHeader m) := by
  unfold createHeader; acts h []

theorem Acts.addChanges_ (ch : Changes) : P _ (addChanges ch) := by
  unfold addChanges; acts h [h.reorderNodes_ _ _, h.toLooks.readNodes_ _]

theorem Acts.putPrepare_ (k : Bytes) (v : Option Bytes) (cas : Option KeyValueData → KeyValueData → Bool) :
    P _ (putPrepare k v cas) := by
  unfold putPrepare
  acts h [h.getRootTrue_, h.toLooks.nearestNode_ _ _, h.toLooks.getKeyValue_ _ _, h.putLoop_ _ _ _ _ _]

theorem Acts.commitPrepared_ (p : Prepared α) : P _ (commitPrepared p) := by
  cases p <;> simp only [commitPrepared] <;> acts h [h.addChanges_ _]

theorem Acts.putCAS_ (k : Bytes) (v : Option Bytes) (cas : Option KeyValueData → KeyValueData → Bool) :
    P _ (putCompareAndSwap k v cas) := by
  unfold putCompareAndSwap; acts h [h.putPrepare_ _ _ _, h.commitPrepared_ _]

theorem Acts.put_ (k : Bytes) (v : Option Bytes) : P _ (put k v) := by
  unfold put; acts h [h.putCAS_ _ _ _]

theorem Acts.delCAS_ (k : Bytes) (cas : KeyValueData → Bool) : P _ (delCompareAndSwap k cas) := by
  unfold delCompareAndSwap; acts h [h.delPrepare_ _ _, h.commitPrepared_ _]

theorem Acts.del_ (k : Bytes) : P _ (del k) := by
  unfold del; acts h [h.delCAS_ _ _]

end

end Hyperbee
