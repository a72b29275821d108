import Verif.Model.Async
import Verif.Proof.Core
/-!
# Running a program without interruption

Every program of `Model/Async`, run to its end with nothing in between, does what the function of
the same name does.
-/

namespace Hyperbee

/-- Running `p` is computing `m`. -/
def Does (p : Prog α) (m : M α) : Prop := p.run = m

theorem Prog.run_bind (p : Prog α) (f : α → Prog β) :
    (p >>= f).run = (p.run >>= fun a => (f a).run) := by
  show (Prog.bind p f).run = _
  induction p with
  | pure a => rfl
  | throw e => rfl
  | step x k ih =>
    funext s
    show (Prog.bind (k (x.run s).1) f).run (x.run s).2 = _
    rw [ih]
    rfl

theorem Does.pure (a : α) : Does (Pure.pure a : Prog α) (Pure.pure a : M α) := rfl
theorem Does.throw (e : Err) : Does (Prog.throw e : Prog α) (Hyperbee.throw e : M α) := rfl

theorem Does.bind {p : Prog α} {m : M α} {f : α → Prog β} {g : α → M β} (h : Does p m)
    (hf : ∀ a, Does (f a) (g a)) : Does (p >>= f) (m >>= g) := by
  show (p >>= f).run = _
  rw [Prog.run_bind, show p.run = m from h]
  congr 1
  funext a
  exact hf a

theorem Does.lift (x : Atom α) : Does (Prog.lift x) x.run := by
  funext s
  show Prog.run _ _ = _
  cases h : x.run s with
  | mk r s' =>
    show (match (x.run s).1 with
      | Except.ok b => Prog.pure b
      | Except.error e => Prog.throw e : Prog α).run (x.run s).2 = _
    rw [h]
    cases r <;> rfl

theorem Does.orPanic (site : String) (o : Option α) :
    Does (Prog.orPanic site o) (Hyperbee.orPanic site o) := by
  cases o <;> rfl

theorem Does.tryResult {p : Prog α} {m : M α} (h : Does p m) :
    Does (Prog.tryResult p) (Hyperbee.tryResult m) := by
  subst h
  induction p with
  | pure a => rfl
  | throw e => cases e <;> rfl
  | step x k ih =>
    funext s
    show (Prog.tryResult (k (x.run s).1)).run (x.run s).2 = _
    rw [ih]
    rfl

theorem Does.readNode (a : Nat) : Does (Prog.readNode a) (Hyperbee.readNode a) := Does.lift _

theorem Does.under {p : Prog α} {m : M α} (a : Nat) (md : Mode) (h : Does p m) : Does (Prog.under a md p) m := by
  subst h
  induction p with
  | pure a => rfl
  | throw e => rfl
  | step x k ih =>
    funext s
    show (Prog.under a md (k (x.run s).1)).run (x.run s).2 = _
    rw [ih]
    rfl

/-- What is left of a statement that changes a node, once it has computed `r`, and of the code
after it. -/
def Leaves (a : Nat) (r : Except Err (β × Node)) (k : β → Prog γ) (m : M γ) : Prop :=
  (match r with
    | .ok (b, n) => Hyperbee.writeNode a n >>= fun _ => (k b).run
    | .error e => Hyperbee.throw e) = m

theorem Does.editThen {f : Node → Except Err (β × Node)} {md : Mode} {a : Nat} {k : β → Prog γ} {g : Node → M γ}
    (h : ∀ n, Leaves a (f n) k (g n)) : Does (Prog.edit md a f >>= k) (Hyperbee.readNode a >>= g) := by
  show (Prog.edit md a f >>= k).run = _
  rw [Prog.run_bind, show (Prog.edit md a f).run = Hyperbee.edit a f from Does.lift _]
  funext s
  unfold Hyperbee.edit
  rw [Hyperbee.bind_run, Hyperbee.bind_run, Hyperbee.bind_run]
  cases Hyperbee.readNode a s with
  | mk r s' =>
    cases r with
    | error e => rfl
    | ok n =>
      have := congrFun (h n) s'
      dsimp only at this ⊢
      rw [← this]
      generalize f n = r
      cases r with
      | error e => rfl
      | ok x => rfl

theorem Does.readThen {a : Nat} {k : Node → Prog γ} {g : Node → M γ}
    (h : ∀ n s, s.heap[a]? = some n → (k n).run s = g n s) :
    Does (Prog.readNode a >>= k) (Hyperbee.readNode a >>= g) := by
  show (Prog.readNode a >>= k).run = _
  rw [Prog.run_bind, show (Prog.readNode a).run = Hyperbee.readNode a from Does.lift _]
  funext s
  rw [Hyperbee.bind_run, Hyperbee.bind_run]
  cases hn : s.heap[a]? with
  | none => simp [Hyperbee.readNode, hn]
  | some n => rw [readNode_some hn]; exact h n s hn

theorem run_readThen {a : Nat} {n : Node} {s : St} (h : s.heap[a]? = some n) (k : Node → Prog γ) :
    (Prog.readNode a >>= k).run s = (k n).run s := by
  rw [Prog.run_bind, show (Prog.readNode a).run = Hyperbee.readNode a from Does.lift _,
    bind_ok (readNode_some h)]

theorem run_editThen {f : Node → Except Err (β × Node)} {md : Mode} {a : Nat} {n : Node} {s : St}
    (h : s.heap[a]? = some n) (k : β → Prog γ) {g : M γ} (hg : Leaves a (f n) k g) :
    (Prog.edit md a f >>= k).run s = g s := by
  rw [Prog.run_bind, show (Prog.edit md a f).run = Hyperbee.edit a f from Does.lift _]
  rw [← show _ = g from hg, Hyperbee.bind_run]
  unfold Hyperbee.edit
  rw [bind_ok (readNode_some h)]
  cases f n <;> rfl

theorem Leaves.ok {a : Nat} {b : β} {n : Node} {k : β → Prog γ} {m : M γ} (h : Does (k b) m) :
    Leaves a (.ok (b, n)) k (Hyperbee.writeNode a n >>= fun _ => m) := by
  subst h; rfl

theorem Leaves.pure {a : Nat} {b : β} {n : Node} {k : β → Prog γ} {m : M γ} (h : Does (k b) m) :
    Leaves a (Pure.pure (b, n)) k (Hyperbee.writeNode a n >>= fun _ => m) := Leaves.ok h

theorem Leaves.need {site : String} {o : Option δ} {a : Nat} {f : δ → Except Err (β × Node)} {k : β → Prog γ}
    {g : δ → M γ} (h : ∀ x, o = some x → Leaves a (f x) k (g x)) :
    Leaves a (Prog.need site o >>= f) k (Hyperbee.orPanic site o >>= g) := by
  cases o with
  | none => rfl
  | some x => exact h x rfl

theorem Leaves.need_some {site : String} {x : δ} {a : Nat} {f : δ → Except Err (β × Node)} {k : β → Prog γ}
    {m : M γ} (h : Leaves a (f x) k m) : Leaves a (Prog.need site (some x) >>= f) k m := h

theorem Does.edit {f : Node → Except Err (β × Node)} {md : Mode} {a : Nat} {g : Node → M β}
    (h : ∀ n, Leaves a (f n) Pure.pure (g n)) : Does (Prog.edit md a f) (Hyperbee.readNode a >>= g) := by
  have h1 : Does (Prog.edit md a f >>= Pure.pure) (Hyperbee.readNode a >>= g) := Does.editThen h
  have h2 : (Prog.edit md a f >>= Pure.pure).run = (Prog.edit md a f).run := by
    rw [Prog.run_bind]
    funext s
    rw [Hyperbee.bind_run]
    cases (Prog.edit md a f).run s with
    | mk r s' => cases r <;> rfl
  exact h2.symm.trans h1

theorem Leaves.last {a : Nat} {n : Node} :
    Leaves a (Pure.pure ((), n)) Pure.pure (Hyperbee.writeNode a n) := rfl

theorem Leaves.last' {a : Nat} {n : Node} :
    Leaves a (.ok ((), n)) Pure.pure (Hyperbee.writeNode a n) := rfl

theorem Does.alloc (n : Node) : Does (Prog.alloc n) (Hyperbee.alloc n) := Does.lift _
theorem Does.version : Does Prog.version Hyperbee.version := Does.lift _
theorem Does.descentFuel : Does Prog.descentFuel Hyperbee.descentFuel := Does.lift _
theorem Does.coreAppend (b : Bytes) : Does (Prog.coreAppend b) (Hyperbee.coreAppend b) :=
  Does.lift _

/-- Discharges goals made of the rules above; the terms given are tried as they are. -/
macro "does" "[" hs:term,* "]" : tactic => do
  let mut t ← `(tactic| fail)
  for h in hs.getElems do
    t ← `(tactic| first | exact $h | $t:tactic)
  `(tactic|
    repeat' (first
      | exact Does.pure _
      | exact Does.throw _
      | exact Does.orPanic _ _
      | exact Does.readNode _
      | exact Leaves.last
      | exact Leaves.last'
      | apply Leaves.pure
      | apply Leaves.ok
      | apply Leaves.need
      | exact Does.alloc _
      | exact Does.version
      | exact Does.descentFuel
      | exact Does.coreAppend _
      | $t:tactic
      | apply Does.under
      | apply Does.tryResult
      | apply Does.editThen
      | apply Does.edit
      | apply Does.bind
      | intro _
      | split
      | dsimp only))

theorem does_blocksGet (q : Nat) : Does (Prog.blocksGet q) (blocksGet q) := by
  unfold Prog.blocksGet blocksGet
  does [Does.lift (.cacheGet q), Does.lift (.coreFetch q), Does.lift (.cacheInsert q _)]

theorem does_getTreeNode (e : BlockEntry) (o : Nat) :
    Does (Prog.getTreeNode e o) (getTreeNode e o) := Does.orPanic _ _

theorem does_getChild (a i : Nat) : Does (Prog.getChild a i) (getChild a i) := by
  unfold Prog.getChild getChild; does [does_blocksGet _, does_getTreeNode _ _]

theorem does_isLeaf (a : Nat) : Does (Prog.isLeaf a) (isLeaf a) := by
  unfold Prog.isLeaf isLeaf; does []

theorem does_getKeyValue (a i : Nat) : Does (Prog.getKeyValue a i) (getKeyValue a i) := by
  unfold Prog.getKeyValue getKeyValue; does [does_blocksGet _]

theorem does_nodeInsert (a k : Nat) (cs : List Child) (i j : Nat) :
    Does (Prog.nodeInsert a k cs i j) (nodeInsert a k cs i j) := by
  unfold Prog.nodeInsert nodeInsert; does []

theorem does_searchLoop (a : Nat) (k : LimitValue) :
    ∀ fuel lo hi, Does (Prog.searchLoop a k fuel lo hi) (searchLoop a k fuel lo hi) := by
  intro fuel
  induction fuel with
  | zero => intro _ _; exact Does.throw _
  | succ n ih =>
    intro lo hi
    unfold Prog.searchLoop searchLoop
    does [ih _ _, does_getKeyValue _ _]

theorem does_getIndexOfKey (a : Nat) (k : LimitValue) :
    Does (Prog.getIndexOfKey a k) (getIndexOfKey a k) := by
  unfold Prog.getIndexOfKey getIndexOfKey; does [does_searchLoop _ _ _ _ _]

theorem does_nearestLoop (k : LimitValue) :
    ∀ fuel a p, Does (Prog.nearestLoop k fuel a p) (nearestLoop k fuel a p) := by
  intro fuel
  induction fuel with
  | zero => intro _ _; exact Does.throw _
  | succ n ih =>
    intro a p
    unfold Prog.nearestLoop nearestLoop
    does [ih _ _, does_getIndexOfKey _ _, does_isLeaf _, does_getChild _ _]

theorem does_nearestNode (a : Nat) (k : LimitValue) :
    Does (Prog.nearestNode a k) (nearestNode a k) := by
  unfold Prog.nearestNode nearestNode; does [does_nearestLoop _ _ _ _]

theorem does_takeChildren (a q : Nat) :
    Does (Prog.takeChildrenWithSeq a q) (takeChildrenWithSeq a q) := by
  unfold Prog.takeChildrenWithSeq takeChildrenWithSeq; does []

theorem does_reorderLoop (q : Nat) (ns : List Addr) :
    ∀ fuel st out, Does (Prog.reorderLoop q ns fuel st out) (reorderLoop q ns fuel st out) := by
  intro fuel
  induction fuel with
  | zero => intro st _; cases st <;> rfl
  | succ n ih =>
    intro st out
    cases st with
    | nil => rfl
    | cons p st =>
      unfold Prog.reorderLoop reorderLoop
      refine Does.readThen fun m s hm => ?_
      cases hc : m.children[p.2]? with
      | none => rfl
      | some c =>
        refine run_editThen hm _ ?_
        rw [hc]
        refine Leaves.need_some (m := orPanic _ (vecSet m.children p.2 ⟨c.seq, out.length⟩) >>= _) ?_
        does [ih _ _, does_takeChildren _ _]

theorem does_reorderNodes (q : Nat) (ns : List Addr) :
    Does (Prog.reorderNodes q ns) (reorderNodes q ns) := by
  unfold Prog.reorderNodes reorderNodes
  does [does_takeChildren _ _, does_reorderLoop _ _ _ _ _]

theorem does_readNodes : ∀ as, Does (Prog.readNodes as) (readNodes as) := by
  intro as
  induction as with
  | nil => rfl
  | cons a as ih => unfold Prog.readNodes readNodes; does [ih]

theorem does_addChanges (ch : Changes) : Does (Prog.addChanges ch) (addChanges ch) := by
  unfold Prog.addChanges addChanges; does [does_reorderNodes _ _, does_readNodes _]

theorem does_createHeader (m : Option Metadata) :
    Does (Prog.createHeader m) (createHeader m) := by
  unfold Prog.createHeader createHeader; does []

theorem Does.catchExists {p : Prog Nat} {m : M Nat} (h : Does p m) :
    Does (Prog.catchExists p) (fun s => match m s with
      | (.ok _, s') => (.ok true, s')
      | (.error .headerAlreadyExists, s') => (.ok false, s')
      | (.error e, s') => (.error e, s')) := by
  subst h
  induction p with
  | pure a => rfl
  | throw e => cases e <;> rfl
  | step x k ih =>
    funext s
    show (Prog.catchExists (k (x.run s).1)).run (x.run s).2 = _
    rw [ih]
    rfl

theorem does_ensureHeader : Does Prog.ensureHeader ensureHeader :=
  Does.catchExists (does_createHeader none)

theorem does_getRoot (b : Bool) : Does (Prog.getRoot b) (getRoot b) := by
  unfold Prog.getRoot getRoot; does [does_ensureHeader, does_blocksGet _, does_getTreeNode _ _]

theorem does_get (k : Bytes) : Does (Prog.get k) (get k) := by
  unfold Prog.get get
  refine Does.bind (does_getRoot _) fun r => ?_
  cases r with
  | none => exact Does.pure _
  | some a =>
    refine Does.bind (does_nearestNode _ _) ?_
    rintro ⟨m, p⟩
    cases m
    · exact Does.pure _
    · exact Does.bind (Does.orPanic _ _) fun x => Does.bind (does_getKeyValue _ _) fun kv => Does.pure _

theorem does_setChild (a i : Nat) (c : Child) : Does (Prog.setChild a i c) (setChild a i c) := by
  unfold Prog.setChild setChild; does []

theorem does_propagate : ∀ (path : NodePath) ch c,
    Does (Prog.propagate ch path c) (propagate ch path c) := by
  intro path
  induction path with
  | nil => intro _ _; rfl
  | cons p path ih =>
    intro ch c
    unfold Prog.propagate propagate; does [ih _ _, does_setChild _ _ _]

theorem does_split (a : Nat) : Does (Prog.split a) (split a) := by
  unfold Prog.split split; does []

theorem does_putLoop (m : Bool) : ∀ (path : NodePath) ch k cs,
    Does (Prog.putLoop m path ch k cs) (putLoop m path ch k cs) := by
  intro path
  induction path with
  | nil => intro _ _ _; unfold Prog.putLoop putLoop; does []
  | cons p path ih =>
    intro ch k cs
    unfold Prog.putLoop putLoop
    does [ih _ _ _, does_nodeInsert _ _ _ _ _, does_split _, does_propagate _ _ _]

theorem does_putPrepare (k : Bytes) (v : Option Bytes)
    (cas : Option KeyValueData → KeyValueData → Bool) :
    Does (Prog.putPrepare k v cas) (putPrepare k v cas) := by
  unfold Prog.putPrepare putPrepare
  refine Does.bind (does_getRoot _) fun r => Does.bind Does.version fun v => ?_
  cases r with
  | none => dsimp only; does [does_putLoop _ _ _ _ _]
  | some a =>
    refine Does.bind (does_nearestNode _ _) ?_
    rintro ⟨m, p⟩
    cases m <;> does [does_getKeyValue _ _, does_putLoop _ _ _ _ _]

theorem does_commitPrepared (p : Prepared α) :
    Does (Prog.commitPrepared p) (commitPrepared p) := by
  cases p
  · rfl
  · unfold Prog.commitPrepared commitPrepared; does [does_addChanges _]

theorem does_putCas (k : Bytes) (v : Option Bytes)
    (cas : Option KeyValueData → KeyValueData → Bool) :
    Does (Prog.putCompareAndSwap k v cas) (putCompareAndSwap k v cas) := by
  unfold Prog.putCompareAndSwap putCompareAndSwap
  does [does_putPrepare _ _ _, does_commitPrepared _]

theorem does_put (k : Bytes) (v : Option Bytes) : Does (Prog.put k v) (put k v) := by
  unfold Prog.put put; does [does_putCas _ _ _]

theorem does_replace (path : NodePath) (a i : Nat) :
    Does (Prog.replaceRemovedInternalKey path a i) (replaceRemovedInternalKey path a i) := by
  unfold Prog.replaceRemovedInternalKey replaceRemovedInternalKey
  does [does_getChild _ _, does_nearestNode _ _]

theorem does_getDonorIndex (sd : Side) (f i : Nat) :
    Does (Prog.Side.getDonorIndex sd f i) (sd.getDonorIndex f i) := by
  cases sd <;> unfold Prog.Side.getDonorIndex Side.getDonorIndex <;> does []

theorem does_getDonorKey (sd : Side) (a : Nat) :
    Does (Prog.Side.getDonorKey sd a) (sd.getDonorKey a) := by
  cases sd <;> unfold Prog.Side.getDonorKey Side.getDonorKey <;> does []

theorem does_getDonorChild (sd : Side) (a : Nat) :
    Does (Prog.Side.getDonorChild sd a) (sd.getDonorChild a) := by
  cases sd <;> unfold Prog.Side.getDonorChild Side.getDonorChild <;> does [does_isLeaf _]

theorem does_swapDonor (sd : Side) (f i k : Nat) :
    Does (Prog.Side.swapDonorKeyInFather sd f i k) (sd.swapDonorKeyInFather f i k) := by
  unfold Prog.Side.swapDonorKeyInFather Side.swapDonorKeyInFather; does []

theorem does_insertDonations (sd : Side) (a k : Nat) (c : Option Child) :
    Does (Prog.Side.insertDonations sd a k c) (sd.insertDonations a k c) := by
  have two : ∀ (f g : Node → Node) (m : Node → M Unit), (∀ n, m n = writeNode a (g (f n))) →
      Does (do
        Prog.edit .write a fun n => .ok ((), f n)
        Prog.edit .children a fun n => .ok ((), g n)) (readNode a >>= m) := by
    intro f g m h
    funext s
    cases hn : s.heap[a]? with
    | none =>
      have hr : readNode a s = (.error (.panic "dangling node"), s) := by simp [readNode, hn]
      rw [bind_error hr, Prog.run_bind,
        show (Prog.edit .write a fun n => .ok ((), f n)).run = Hyperbee.edit a fun n => .ok ((), f n) from Does.lift _]
      exact bind_error (by unfold Hyperbee.edit; exact bind_error hr)
    | some n =>
      rw [bind_ok (readNode_some hn), h, run_editThen (f := fun n => .ok ((), f n)) hn
        (g := writeNode a (f n) >>= fun _ => (Prog.edit .children a fun n => .ok ((), g n)).run)
        (fun _ => Prog.edit .children a fun n => .ok ((), g n)) rfl]
      show (Prog.edit .children a fun n => .ok ((), g n)).run { s with heap := s.heap.set a (f n) } = _
      rw [show (Prog.edit .children a fun n => .ok ((), g n)).run = Hyperbee.edit a fun n => .ok ((), g n) from
        Does.lift _]
      have hlt := (List.getElem?_eq_some_iff.mp hn).1
      unfold Hyperbee.edit
      rw [bind_ok (readNode_some (n := f n) (by simp [hlt]))]
      simp [Hyperbee.bind_run]
  cases sd <;> cases c
  · unfold Prog.Side.insertDonations Side.insertDonations; dsimp only; does []
  · exact two (fun n => { n with keys := k :: n.keys }) (fun n => { n with children := _ :: n.children }) _ fun n => rfl
  · unfold Prog.Side.insertDonations Side.insertDonations; dsimp only; simp only [Option.toList, List.append_nil]; does []
  · exact two (fun n => { n with keys := n.keys ++ [k] }) (fun n => { n with children := n.children ++ [_] }) _ fun n => rfl

theorem does_canRotate (sd : Side) (f i o : Nat) :
    Does (Prog.Side.canRotate sd f i o) (sd.canRotate f i o) := by
  unfold Prog.Side.canRotate Side.canRotate; does [does_getDonorIndex _ _ _, does_getChild _ _]

theorem does_rotate (sd : Side) (f i d j e : Nat) (ch : Changes) :
    Does (Prog.Side.rotate sd f i d j e ch) (sd.rotate f i d j e ch) := by
  unfold Prog.Side.rotate Side.rotate
  does [does_getDonorKey _ _, does_getDonorChild _ _, does_swapDonor _ _ _ _,
    does_insertDonations _ _ _ _, does_setChild _ _ _]

theorem does_maybeRotate (sd : Side) (f i d o : Nat) (ch : Changes) :
    Does (Prog.Side.maybeRotate sd f i d o ch) (sd.maybeRotate f i d o ch) := by
  unfold Prog.Side.maybeRotate Side.maybeRotate
  does [does_canRotate _ _ _ _, does_rotate _ _ _ _ _ _ _]

theorem does_moveChildren (l r n : Nat) :
    Does (Prog.Side.moveChildren l r n) (Side.moveChildren l r n) :=
  Does.under l .children (Does.lift (.moveChildren l r n))

theorem does_maybeMerge (sd : Side) (f i d : Nat) (ch : Changes) :
    Does (Prog.Side.maybeMerge sd f i d ch) (sd.maybeMerge f i d ch) := by
  unfold Prog.Side.maybeMerge Side.maybeMerge
  cases sd <;> does [does_getDonorIndex _ _ _, does_getChild _ _, does_moveChildren _ _ _]

theorem does_repairOne (f i d o : Nat) (ch : Changes) :
    Does (Prog.repairOne f i d o ch) (repairOne f i d o ch) := by
  unfold Prog.repairOne repairOne
  does [does_maybeRotate _ _ _ _ _ _, does_maybeMerge _ _ _ _ _]

theorem run_rootIsEmpty {s : St} {f : Nat} {n : Node} (h : s.heap[f]? = some n) (path : NodePath) (k : Bool → Prog γ) :
    (Prog.rootIsEmpty path f >>= k).run s =
      (k (decide (path.isEmpty = true ∧ n.keys.isEmpty = true ∧ n.children.length = 1))).run s := by
  rw [Prog.run_bind]
  unfold Prog.rootIsEmpty
  by_cases h1 : path.isEmpty = true
  · rw [if_pos h1, Hyperbee.bind_run, run_readThen h]
    by_cases h2 : n.keys.isEmpty = true
    · rw [if_pos h2, run_readThen h]
      simp only [h1, h2, true_and]
      rfl
    · rw [if_neg h2, decide_eq_false (by simp_all)]
      rfl
  · rw [if_neg h1, decide_eq_false (by simp_all)]
    rfl

theorem does_repairLoop (o : Nat) : ∀ (path : NodePath) f i d ch,
    Does (Prog.repairLoop o path f i d ch) (repairLoop o path f i d ch) := by
  intro path
  induction path with
  | nil =>
    intro f i d ch
    unfold Prog.repairLoop repairLoop
    refine Does.bind (does_repairOne _ _ _ _ _) fun ch => ?_
    funext s
    cases hn : s.heap[f]? with
    | none =>
      have hr : readNode f s = (.error (.panic "dangling node"), s) := by simp [readNode, hn]
      rw [bind_error hr]
      have : ∀ k : Node → Prog Bool, (Prog.readNode f >>= k).run s = (.error (.panic "dangling node"), s) := by
        intro k
        rw [Prog.run_bind, show (Prog.readNode f).run = readNode f from Does.lift _, bind_error hr]
      rw [Prog.run_bind]
      exact bind_error (this _)
    | some n =>
      rw [run_rootIsEmpty hn, bind_ok (readNode_some hn)]
      by_cases h : List.isEmpty ([] : NodePath) = true ∧ n.keys.isEmpty = true ∧ n.children.length = 1
      · rw [decide_eq_true h, if_pos rfl, if_pos h, run_readThen hn]
        exact congrFun (show Does _ _ by does []) s
      · rw [decide_eq_false h, if_neg (by simp), if_neg h]
        rfl
  | cons p path ih =>
    intro f i d ch
    unfold Prog.repairLoop repairLoop
    refine Does.bind (does_repairOne _ _ _ _ _) fun ch => ?_
    refine (Does.readThen fun n s hn => ?_ : Does (Prog.readNode _ >>= fun n => _) _)
    have hne : ¬((p :: path).isEmpty = true ∧ n.keys.isEmpty = true ∧ n.children.length = 1) := by simp
    rw [if_neg hne]
    exact congrFun (show Does _ _ by dsimp only; split <;> does [ih _ _ _ _]) s

theorem does_repair (path : NodePath) (o : Nat) (ch : Changes) :
    Does (Prog.repair path o ch) (repair path o ch) := by
  unfold Prog.repair repair
  does [does_getChild _ _, does_repairLoop _ _ _ _ _ _]

theorem does_delChanges (k : Bytes) (path : NodePath) :
    Does (Prog.delChanges k path) (delChanges k path) := by
  unfold Prog.delChanges delChanges
  does [does_isLeaf _, does_replace _ _ _, does_repair _ _ _, does_propagate _ _ _]

theorem does_delPrepare (k : Bytes) (cas : KeyValueData → Bool) :
    Does (Prog.delPrepare k cas) (delPrepare k cas) := by
  unfold Prog.delPrepare delPrepare
  does [does_getRoot _, does_nearestNode _ _, does_getKeyValue _ _, does_delChanges _ _]

theorem does_delCas (k : Bytes) (cas : KeyValueData → Bool) :
    Does (Prog.delCompareAndSwap k cas) (delCompareAndSwap k cas) := by
  unfold Prog.delCompareAndSwap delCompareAndSwap
  does [does_delPrepare _ _, does_commitPrepared _]

theorem does_del (k : Bytes) : Does (Prog.del k) (del k) := by
  unfold Prog.del del
  refine Does.bind (does_delCas _ _) fun r => ?_
  cases r with
  | none => exact Does.pure _
  | some x => obtain ⟨d, q⟩ := x; cases d <;> exact rfl

theorem does_makeIter (conf : TraverseConfig) (a n c : Nat) :
    Does (Prog.makeChildKeyIndexIter conf a n c) (makeChildKeyIndexIter conf a n c) := by
  unfold Prog.makeChildKeyIndexIter makeChildKeyIndexIter
  refine Does.bind (does_getIndexOfKey _ _) ?_
  rintro ⟨m, i⟩
  dsimp only
  generalize (if m.isSome = true then _ else _ : Option Nat) = o
  cases o
  · exact Does.pure _
  · exact Does.pure _

theorem does_pollSetup (r : Bool) (f : Frame) :
    Does (Prog.pollSetup r f) (pollSetup r f) := by
  unfold Prog.pollSetup pollSetup
  cases f.nkc with
  | none =>
    dsimp only
    split
    · exact Does.pure _
    · split
      · exact Does.pure _
      · refine Does.readThen fun n s hn => ?_
        rw [Prog.run_bind, show (Prog.under f.root .read (Prog.readNode f.root)).run = readNode f.root from
          Does.under _ _ (Does.readNode _), bind_ok (readNode_some hn)]
        rfl
  | some x =>
    obtain ⟨n, c⟩ := x
    dsimp only
    cases f.iter with
    | none =>
      dsimp only
      cases f.iterFut with
      | none => exact Does.pure _
      | some b =>
        cases b
        · dsimp only
          split
          · exact Does.pure _
          · refine Does.bind (Does.tryResult (does_makeIter _ _ _ _)) fun r => ?_
            cases r <;> exact Does.pure _
        · exact Does.throw _
    | some l =>
      cases l with
      | nil => exact Does.pure _
      | cons i l => dsimp only; does []

theorem does_poll (r : Bool) : ∀ fs, Does (Prog.poll r fs) (poll r fs) := by
  intro fs
  induction fs with
  | nil => rfl
  | cons f rest ih =>
    unfold Prog.poll poll
    cases f.nextKey with
    | some x =>
      obtain ⟨i, b⟩ := x
      cases b
      · dsimp only
        split
        · rename_i h; cases h
        · split
          · exact Does.pure _
          · refine Does.bind (Does.tryResult (does_getKeyValue _ _)) fun r => ?_
            cases r with
            | error e => exact Does.pure _
            | ok kv => dsimp only; does []
      · exact Does.throw _
    | none =>
      dsimp only
      cases f.nextChild with
      | some i =>
        dsimp only
        split
        · exact Does.pure _
        · refine Does.bind (Does.tryResult (does_getChild _ _)) fun r => ?_
          cases r <;> exact Does.pure _
      | none =>
        cases rest with
        | nil => exact does_pollSetup _ _
        | cons c cs =>
          refine Does.bind ih ?_
          rintro ⟨p, rest'⟩
          cases p with
          | pending w1 w2 => exact Does.pure _
          | ready o w => cases o <;> exact Does.pure _

theorem does_traverse (conf : TraverseConfig) : Does (Prog.traverse conf) (traverse conf) := by
  unfold Prog.traverse traverse; does [does_getRoot _]

theorem does_drive {p : Except Err KeyValueData → Prog β} {m : Except Err KeyValueData → M β}
    (h : ∀ r, Does (p r) (m r)) : ∀ rs fs, Does (Prog.drive p rs fs) (drive m rs fs) := by
  intro rs
  induction rs with
  | nil => intro _; rfl
  | cons r rs ih =>
    intro fs
    unfold Prog.drive drive
    does [ih _, h _, does_poll _ _]

theorem does_collect (rs : List Bool) (conf : TraverseConfig) :
    Does (Prog.collect rs conf) (collect rs conf) := by
  unfold Prog.collect collect
  does [does_traverse _, does_drive (fun _ => Does.pure _) _ _]

theorem does_traverseSession (b : TraverseConfigBuilder) (rs : List Bool) :
    Does (Prog.traverseSession b rs) (traverseSession b rs) := by
  unfold Prog.traverseSession traverseSession
  cases b.build with
  | error e => exact Does.throw e
  | ok conf => exact Does.bind (does_collect _ _) fun _ => Does.pure _

theorem run_replyOf {p : Prog α} {m : M α} (h : Does p m) (f : α → Reply) (s : St) :
    (Prog.replyOf f p).run s = (.ok (replyOf m f s).1, (replyOf m f s).2) := by
  subst h
  induction p generalizing s with
  | pure a => rfl
  | throw e => rfl
  | step x k ih => exact ih (x.run s).1 (x.run s).2

/-- A call whose future is polled to its end with nothing in between does what `exec` says. -/
theorem run_exec (c : Cmd) (hc : c ≠ .reopen) (s : St) :
    (Prog.exec c).run s = (.ok (exec c s).1, (exec c s).2) := by
  cases c with
  | reopen => exact absurd rfl hc
  | version => exact run_replyOf Does.version _ s
  | get k => exact run_replyOf (does_get k) _ s
  | put k v => exact run_replyOf (does_put k v) _ s
  | putCas k v cas => exact run_replyOf (does_putCas k v cas) _ s
  | del k => exact run_replyOf (does_del k) _ s
  | delCas k cas => exact run_replyOf (does_delCas k cas) _ s
  | createHeader m => exact run_replyOf (does_createHeader m) _ s
  | traverse b rs => exact run_replyOf (does_traverseSession b rs) _ s

end Hyperbee
