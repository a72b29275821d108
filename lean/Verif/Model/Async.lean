import Verif.Model.Session
/-!
# Operations as sequences of steps

The functions of the code are `async`: an operation is a future, and at every `await` other futures
may run, or the future may be dropped and never be polled again.  Here an operation is a program
that takes one *step* at a time.  A step is what happens between two awaits on a lock or on the
core: reading or writing one node, looking into the cache, fetching and decoding a block, filing it
in the cache, asking for the length, appending.  Several programs can be run on one state, in any
order of their steps.

The programs below are the functions of `Model/State`, `Model/Changes`, `Model/Tree`, `Model/Put`,
`Model/Del` and `Model/Traverse`, line by line; `Proof/Async` proves that running one of them
without interruption is the same as the function there.

Locks.  Most of the code's guards live for one statement; such a statement is one step.  A guard that
is kept while other steps are taken is written down with those steps (`Atom.under`).
`Prog.interleave` runs the steps in any order whatever, `Flight.poll` grants a step only when the
locks it needs are free; waiting requests for a node are granted in the order they were made, as
tokio's `RwLock` does.

Simplifications:
* A node's lock and the lock of its children list are distinct in the code (src/lib.rs:98-102).  In
  the model a read of a node asks for both.
* The locks of the cache, the core, the tree, the blocks and the block entries are not written
  down: no step is taken and no other lock asked for while one of them is held for writing.
* Reading a node takes its keys and its children in one step.
* A traversal's futures take their steps in the poll in which they complete; what else runs may
  come between any two of these steps.
* `core.append` is one step: it happens or it does not.
-/

namespace Hyperbee

/-- How a node is locked. -/
inductive Mode where
  /-- `node.read()` -/
  | read
  /-- `node.write()` -/
  | write
  /-- `wchildren!(node)`: `node.read()` and its `children.write()`, src/lib.rs:170-175 -/
  | children
  deriving DecidableEq, Repr

/-- Change a node under one guard: read it, compute, store. -/
def edit (a : Addr) (f : Node → Except Err (β × Node)) : M β := do
  let n ← readNode a
  match f n with
  | .ok (b, n') => do
    writeNode a n'
    pure b
  | .error e => throw e

/-- One step. -/
inductive Atom : Type → Type 1 where
  /-- `self.core.info().await.length`, src/blocks.rs:90-92 -/
  | version : Atom Nat
  /-- The model's bound on tree descents; the code does nothing here. -/
  | descentFuel : Atom Nat
  /-- `self.cache.read().await.get(seq)`, src/blocks.rs:72-74 -/
  | cacheGet (seq : Nat) : Atom (Option BlockEntry)
  /-- `self.core.get(seq).await` and the decoding after it, src/blocks.rs:76-88 -/
  | coreFetch (seq : Nat) : Atom (Option BlockEntry)
  /-- `self.cache.write().await.insert(seq, entry)`, src/blocks.rs:68 -/
  | cacheInsert (seq : Nat) (e : BlockEntry) : Atom Unit
  /-- `node.read().await` -/
  | readNode (a : Addr) : Atom Node
  /-- A statement that changes a node through `node.write().await` or `wchildren!(node)`. -/
  | edit {β : Type} (m : Mode) (a : Addr) (f : Node → Except Err (β × Node)) : Atom β
  /-- Taking the guard `wchildren!(node)`, to be kept. -/
  | lockChildren (a : Addr) : Atom Unit
  /-- `wchildren!(left).splice(n..n, wchildren!(right).drain(..))` once the guard of `left` is
  held, src/del.rs:275-278 -/
  | moveChildren (lhs rhs : Addr) (n : Nat) : Atom Unit
  /-- `Arc::new(RwLock::new(node))` -/
  | alloc (n : Node) : Atom Addr
  /-- `self.core.append(value).await`, src/blocks.rs:94-96 -/
  | coreAppend (b : Bytes) : Atom Nat
  /-- A step taken while a guard of the node `a` is held. -/
  | under {β : Type} (a : Addr) (m : Mode) (x : Atom β) : Atom β

/-- What a step does. -/
def Atom.run : Atom β → M β
  | .version => Hyperbee.version
  | .descentFuel => Hyperbee.descentFuel
  | .cacheGet seq => getFromCache seq
  | .coreFetch seq => getFromCore seq
  | .cacheInsert seq e => modifySt fun s => { s with cache := Hyperbee.cacheInsert seq e s.cache }
  | .readNode a => Hyperbee.readNode a
  | .edit _ a f => Hyperbee.edit a f
  | .lockChildren _ => pure ()
  | .moveChildren lhs rhs n => Side.moveChildren lhs rhs n
  | .alloc n => Hyperbee.alloc n
  | .coreAppend b => Hyperbee.coreAppend b
  | .under _ _ x => x.run

/-- The lock a step asks for. -/
def Atom.needs : Atom β → Option (Addr × Mode)
  | .readNode a => some (a, .read)
  | .edit m a _ => some (a, m)
  | .lockChildren a => some (a, .children)
  | .moveChildren _ rhs _ => some (rhs, .children)
  | .under _ _ x => x.needs
  | _ => none

/-- The guards held when a step is taken. -/
def Atom.holds : Atom β → List (Addr × Mode)
  | .under a m x => (a, m) :: x.holds
  | _ => []

/-- A future: it has returned, it has failed (or panicked), or it will take a step and go on
with the result of the step. -/
inductive Prog (α : Type) : Type 1 where
  | pure (a : α)
  | throw (e : Err)
  | step {β : Type} (x : Atom β) (k : Except Err β → Prog α)

namespace Prog

/-- Run to the end without interruption. -/
def run : Prog α → M α
  | .pure a => fun s => (.ok a, s)
  | .throw e => fun s => (.error e, s)
  | .step x k => fun s => (k (x.run s).1).run (x.run s).2

/-- `.await?`: go on with the value, or fail with the error. -/
def bind : Prog α → (α → Prog β) → Prog β
  | .pure a, f => f a
  | .throw e, _ => .throw e
  | .step x k, f => .step x fun r => (k r).bind f

instance : Monad Prog where
  pure := .pure
  bind := .bind

/-- A single step. -/
def lift (x : Atom β) : Prog β :=
  .step x fun r => match r with
    | .ok b => .pure b
    | .error e => .throw e

/-- `expect`/`unwrap`/indexing: panic on `none`. -/
def orPanic (site : String) : Option α → Prog α
  | some a => .pure a
  | none => .throw (.panic site)

/-- `node.read().await`. -/
def readNode (a : Addr) : Prog Node := lift (.readNode a)

/-- A statement that changes a node through `node.write().await` or `wchildren!(node)`
(src/lib.rs:170-175). -/
def edit (m : Mode) (a : Addr) (f : Node → Except Err (β × Node)) : Prog β := lift (.edit m a f)

/-- `expect`/`unwrap`/indexing inside such a statement. -/
def need (site : String) : Option α → Except Err α
  | some a => .ok a
  | none => .error (.panic site)

/-- Steps taken while a guard of the node is held. -/
def under (a : Addr) (m : Mode) : Prog α → Prog α
  | .pure b => .pure b
  | .throw e => .throw e
  | .step x k => .step (.under a m x) fun r => (k r).under a m

/-- `Arc::new(RwLock::new(node))`. -/
def alloc (n : Node) : Prog Addr := lift (.alloc n)

/-- `self.core.info().await.length`, src/blocks.rs:90-92; `Tree::version`, src/tree.rs:48-50. -/
def version : Prog Nat := lift .version

/-- The model's bound on tree descents. -/
def descentFuel : Prog Nat := lift .descentFuel

/-- `Blocks::append`, src/blocks.rs:94-96. -/
def coreAppend (b : Bytes) : Prog Nat := lift (.coreAppend b)

/-- Run a future to its `Result`; panics are not results. -/
def tryResult : Prog α → Prog (Except Err α)
  | .pure a => .pure (.ok a)
  | .throw (.panic site) => .throw (.panic site)
  | .throw .diverge => .throw .diverge
  | .throw e => .pure (.error e)
  | .step x k => .step x fun r => (k r).tryResult

/-- `Blocks::get`, src/blocks.rs:53-71. -/
def blocksGet (seq : Nat) : Prog BlockEntry := do
  match ← lift (.cacheGet seq) with
  | some block => Pure.pure block
  | none =>
    match ← lift (.coreFetch seq) with
    | none => throw (.noBlockAtSeq seq)
    | some entry => do
      lift (.cacheInsert seq entry)
      Pure.pure entry

/-- `BlockEntry::get_tree_node`, src/blocks.rs:217-226. -/
def getTreeNode (e : BlockEntry) (offset : Nat) : Prog Addr :=
  orPanic "blocks.rs:224 offset *should* always point to a real node" e.nodes[offset]?

/-- `Children::get_child` / `Node::get_child`, src/lib.rs:135-148 and 260-262. -/
def getChild (a : Addr) (index : Nat) : Prog Addr := do
  let n ← readNode a
  under a .read do
    let c ← orPanic "lib.rs:137 children[index]" n.children[index]?
    let block ← blocksGet c.seq
    getTreeNode block c.offset

/-- `Node::is_leaf`, src/lib.rs:193-199. -/
def isLeaf (a : Addr) : Prog Bool := do
  let n ← readNode a
  Pure.pure (n.children.length == 0)

/-- `Node::get_key_value`, src/lib.rs:234-257 (two block reads, as in the code). -/
def getKeyValue (a : Addr) (index : Nat) : Prog KeyValueData := do
  let n ← readNode a
  under a .read do
    let seq ← orPanic "lib.rs:235 keys[index]" n.keys[index]?
    let b1 ← blocksGet seq
    let b2 ← blocksGet seq
    Pure.pure ⟨seq, b1.key, b2.value⟩

/-- `Node::insert`, src/lib.rs:266-270, with the range `start..stop`. -/
def nodeInsert (a : Addr) (key : Nat) (children : List Child) (start stop : Nat) : Prog Unit :=
  edit .write a fun n => do
    let ks ← need "lib.rs:268 keys.splice" (vecSplice n.keys start stop [key])
    let cs ← need "lib.rs:128 children.splice" (childrenInsert n.children start children)
    Pure.pure ((), ⟨ks, cs⟩)

/-- The `while low <= high` loop of `get_index_of_key`, src/lib.rs:323-353.  `key == other` and
`key < other` are the two comparisons made per round. -/
def searchLoop (a : Addr) (key : LimitValue) : Nat → Nat → Nat → Prog (Option Nat × Nat)
  | 0, _, _ => throw .diverge
  | fuel + 1, low, high =>
    if low ≤ high then do
      let mid := low + ((high - low) >>> 1)
      let kv ← getKeyValue a mid
      if key.eqBytes kv.key then Pure.pure (some kv.seq, mid)
      else if key.cmp kv.key = .lt then
        if mid = 0 then Pure.pure (none, low)
        else searchLoop a key fuel low (mid - 1)
      else searchLoop a key fuel (mid + 1) high
    else Pure.pure (none, low)

/-- `get_index_of_key`, src/lib.rs:307-356. -/
def getIndexOfKey (a : Addr) (key : LimitValue) : Prog (Option Nat × Nat) := do
  let n ← readNode a
  let nKeys := n.keys.length
  if nKeys = 0 then Pure.pure (none, nKeys)
  else searchLoop a key (nKeys + 1) 0 (nKeys - 1)

/-- The loop of `nearest_node`, src/lib.rs:379-395, with a bound on its rounds. -/
def nearestLoop (key : LimitValue) : Nat → Addr → NodePath → Prog (Option Nat × NodePath)
  | 0, _, _ => throw .diverge
  | fuel + 1, cur, path => do
    let (matched, childIndex) ← getIndexOfKey cur key
    let path := (cur, childIndex) :: path
    let leaf ← isLeaf cur
    if matched.isSome || leaf then Pure.pure (matched, path)
    else do
      let next ← getChild cur childIndex
      nearestLoop key fuel next path

/-- `nearest_node`, src/lib.rs:372-396. -/
def nearestNode (a : Addr) (key : LimitValue) : Prog (Option Nat × NodePath) := do
  let fuel ← descentFuel
  nearestLoop key fuel a []

/-- `take_children_with_seq`, src/blocks.rs:137-150.  The code reverses the list because it appends
it to a stack `Vec`; the model's stack has its top at the head, so the order is kept. -/
def takeChildrenWithSeq (a : Addr) (seq : Nat) : Prog (List (Addr × Nat)) := do
  let n ← readNode a
  Pure.pure ((indicesWithSeq seq 0 n.children).map fun i => (a, i))

/-- The loop of `reorder_nodes`, src/blocks.rs:162-175, with a bound on its rounds. -/
def reorderLoop (seq : Nat) (nodes : List Addr) :
    Nat → List (Addr × Nat) → List Addr → Prog (List Addr)
  | _, [], out => Pure.pure out
  | 0, _ :: _, _ => throw .diverge
  | fuel + 1, (node, childIndex) :: stack, out => do
    let n ← readNode node
    let c ← orPanic "blocks.rs:166 children[child_index]" n.children[childIndex]?
    let oldOffset := c.offset
    edit .children node fun n => do
      let c ← need "blocks.rs:168 children[child_index]" n.children[childIndex]?
      let cs ← need "blocks.rs:168 children[child_index]"
        (vecSet n.children childIndex ⟨c.seq, out.length⟩)
      Pure.pure ((), { n with children := cs })
    let childsNode ← orPanic "blocks.rs:170 nodes[old_offset]" nodes[oldOffset]?
    let more ← takeChildrenWithSeq childsNode seq
    reorderLoop seq nodes fuel (more ++ stack) (out ++ [childsNode])

/-- `reorder_nodes`, src/blocks.rs:155-177.  The model's bound on the loop is the number of nodes. -/
def reorderNodes (seq : Nat) (nodes : List Addr) : Prog (List Addr) := do
  let root ← orPanic "blocks.rs:156 nodes[len - 1]" nodes.getLast?
  let stack ← takeChildrenWithSeq root seq
  reorderLoop seq nodes nodes.length stack [root]

/-- Read a list of nodes (src/blocks.rs:111-114). -/
def readNodes : List Addr → Prog (List Node)
  | [] => Pure.pure []
  | a :: as => do
    let n ← readNode a
    let ns ← readNodes as
    Pure.pure (n :: ns)

/-- `Blocks::add_changes`, src/blocks.rs:100-131. -/
def addChanges (ch : Changes) : Prog Nat := do
  let reordered ← reorderNodes ch.seq ch.nodes
  let ns ← readNodes reordered
  coreAppend (encodeBlock ch.key ch.value ns)

/-- `Tree::create_header`, src/tree.rs:119-135. -/
def createHeader (metadata : Option Metadata) : Prog Nat := do
  let len ← version
  if len ≠ 0 then throw .headerAlreadyExists
  else coreAppend (encodeHeader ⟨PROTOCOL, metadata⟩)

/-- `match e { HeaderAlreadyExists => Ok(false), .. }`, src/tree.rs:108-114. -/
def catchExists : Prog Nat → Prog Bool
  | .pure _ => .pure true
  | .throw .headerAlreadyExists => .pure false
  | .throw e => .throw e
  | .step x k => .step x fun r => (k r).catchExists

/-- `Tree::ensure_header`, src/tree.rs:107-115. -/
def ensureHeader : Prog Bool := catchExists (createHeader none)

/-- `Tree::get_root`, src/tree.rs:53-72. -/
def getRoot (ensure : Bool) : Prog (Option Addr) := do
  let v ← version
  if v ≤ 1 then
    if v = 0 ∧ ensure = true then do
      let _ ← ensureHeader
      Pure.pure none
    else Pure.pure none
  else do
    let block ← blocksGet (v - 1)
    let root ← getTreeNode block 0
    Pure.pure (some root)

/-- `Tree::get`, src/tree.rs:90-104; `Hyperbee::get`, src/hb.rs:75-77. -/
def get (key : Bytes) : Prog (Option (Nat × Option Bytes)) := do
  match ← getRoot false with
  | none => Pure.pure none
  | some node => do
    let (matched, path) ← nearestNode node (.finite key)
    if matched.isSome then do
      let (node, keyIndex) ← orPanic "tree.rs:99 path.last()" path.head?
      let kv ← getKeyValue node keyIndex
      Pure.pure (some (kv.seq, kv.value))
    else Pure.pure none

/-- `wchildren!(node)[index] = child` (src/put.rs:27, src/del.rs:201-202). -/
def setChild (a : Addr) (index : Nat) (c : Child) : Prog Unit :=
  edit .children a fun n => do
    let cs ← need "children[index] = child" (vecSet n.children index c)
    Pure.pure ((), { n with children := cs })

/-- `propagate_changes_up_tree`, src/put.rs:14-30. -/
def propagate (ch : Changes) : NodePath → Child → Prog Changes
  | [], _ => Pure.pure ch
  | (node, index) :: path, curChild => do
    setChild node index curChild
    let (ch, curChild) := ch.addNode node
    propagate ch path curChild

/-- `Node::split`, src/put.rs:36-66: the two halves (freshly allocated) and the middle key.  The
split node itself is left empty. -/
def split (a : Addr) : Prog (Addr × Nat × Addr) := do
  let (left, midKey, right) ← edit .write a fun n => do
    let km := n.keys.length >>> 1
    let cm := n.children.length >>> 1
    let left : Node := ⟨n.keys.take km, n.children.take cm⟩
    let (midKey, rest) ← need "put.rs:55 keys.remove(0)" (vecRemove (n.keys.drop km) 0)
    let right : Node := ⟨rest, n.children.drop cm⟩
    Pure.pure ((left, midKey, right), ⟨[], []⟩)
  let l ← alloc left
  let r ← alloc right
  Pure.pure (l, midKey, r)

/-- The `loop` of `put_compare_and_swap` and the code after it, src/put.rs:119-184, up to but not
including `add_changes`: the collected changes.  (In the code each exit of the loop calls
`add_changes(changes)` and returns `(matched, Some(seq))`; the model does that once, in
`putCompareAndSwap`.) -/
def putLoop (matched : Bool) : NodePath → Changes → Nat → List Child → Prog Changes
  | [], ch, curKey, children => do
    -- src/put.rs:176-184: a new root
    let newRoot ← alloc ⟨[curKey], children⟩
    let (ch, _) := ch.addNode newRoot
    Pure.pure ch
  | (curNode, curIndex) :: path, ch, curKey, children => do
    let n ← readNode curNode
    let room := n.keys.length < MAX_KEYS
    if matched = true ∨ room then do
      -- src/put.rs:128-151
      let stop := if matched then curIndex + 1 else curIndex
      nodeInsert curNode curKey children curIndex stop
      let (ch, child) := ch.addNode curNode
      if path.isEmpty then Pure.pure ch
      else propagate ch path child
    else do
      -- src/put.rs:153-167
      nodeInsert curNode curKey children curIndex curIndex
      let (left, midKey, right) ← split curNode
      let (ch, cl) := ch.addNode left
      let (ch, cr) := ch.addNode right
      putLoop matched path ch midKey [cl, cr]

/-- `Tree::put_compare_and_swap`, src/put.rs:74-188, up to `add_changes`. -/
def putPrepare (key : Bytes) (value : Option Bytes)
    (cas : Option KeyValueData → KeyValueData → Bool) :
    Prog (Prepared (Option Nat × Option Nat)) := do
  let maybeRoot ← getRoot true
  let seq ← version
  let changes := Changes.new seq key value
  let newKeyData : KeyValueData := ⟨seq, key, value⟩
  match maybeRoot with
  | none =>
    if cas none newKeyData = false then Pure.pure (.done (none, none))
    else do
      let ch ← putLoop false [] changes seq []
      Pure.pure (.commit ch (none, some seq))
  | some root => do
    let (matched, path) ← nearestNode root (.finite key)
    let oldKeyData ←
      if matched.isSome then do
        let (node, index) ← orPanic "put.rs:109 path[path.len() - 1]" path.head?
        let kv ← getKeyValue node index
        Pure.pure (some kv)
      else Pure.pure none
    if cas oldKeyData newKeyData = false then Pure.pure (.done (matched, none))
    else do
      let ch ← putLoop matched.isSome path changes seq []
      Pure.pure (.commit ch (matched, some seq))

/-- Write the block, then return. -/
def commitPrepared : Prepared α → Prog α
  | .done a => Pure.pure a
  | .commit ch a => do
    let _ ← addChanges ch
    Pure.pure a

/-- `Tree::put_compare_and_swap`, src/put.rs:74-188; `Hyperbee::put_compare_and_swap`,
src/hb.rs:95-106. -/
def putCompareAndSwap (key : Bytes) (value : Option Bytes)
    (cas : Option KeyValueData → KeyValueData → Bool) : Prog (Option Nat × Option Nat) := do
  let p ← putPrepare key value cas
  commitPrepared p

/-- `Tree::put`, src/put.rs:198-210; `Hyperbee::put`, src/hb.rs:83-89. -/
def put (key : Bytes) (value : Option Bytes) : Prog (Option Nat × Nat) := do
  let (old, new) ← putCompareAndSwap key value (fun _ _ => true)
  let new ← orPanic "put.rs:208 with cas_always_true this should never be none" new
  Pure.pure (old, new)

/-- `Side::replace_removed_internal_key_with_a_key_from_leaf`, src/del.rs:34-70.  Returns the
extended path. -/
def replaceRemovedInternalKey (path : NodePath) (node : Addr) (keyIndex : Nat) : Prog NodePath := do
  let leftChildIndex := keyIndex
  let rightChildIndex := leftChildIndex + 1
  let leftChild ← getChild node leftChildIndex
  let (_, leftPath) ← nearestNode leftChild (.infinite .positive)
  let (leftLeaf, _) ← orPanic "del.rs:44 left_path.last()" leftPath.head?
  let leftNode ← readNode leftLeaf
  let numLeftKeys := leftNode.keys.length
  let rightChild ← getChild node rightChildIndex
  let (_, rightPath) ← nearestNode rightChild (.infinite .negative)
  let (rightLeaf, _) ← orPanic "del.rs:48 right_path.last()" rightPath.head?
  let rightNode ← readNode rightLeaf
  let numRightKeys := rightNode.keys.length
  let (childIndex, replacementKey, pathToBottom) ←
    if numLeftKeys < numRightKeys then do
      let donor ← edit .write rightLeaf fun n => do
        let (donor, ks) ← need "del.rs:51 keys.remove(0)" (vecRemove n.keys 0)
        Pure.pure (donor, { n with keys := ks })
      Pure.pure (rightChildIndex, donor, rightPath)
    else do
      let donor ← edit .write leftLeaf fun n => do
        let (donor, ks) ← need "del.rs:62 keys.pop()" (vecPop n.keys)
        Pure.pure (donor, { n with keys := ks })
      Pure.pure (leftChildIndex, donor, leftPath)
  edit .write node fun n => do
    let ks ← need "del.rs:65 keys.insert" (vecInsert n.keys keyIndex replacementKey)
    Pure.pure ((), { n with keys := ks })
  Pure.pure (pathToBottom ++ (node, childIndex) :: path)

namespace Side

/-- `Side::get_donor_index`, src/del.rs:75-86. -/
def getDonorIndex (side : Side) (father : Addr) (deficientIndex : Nat) : Prog (Option Nat) :=
  match side with
  | .left => Pure.pure (if deficientIndex = 0 then none else some (deficientIndex - 1))
  | .right => do
    let n ← readNode father
    Pure.pure (if deficientIndex + 1 ≥ n.children.length then none else some (deficientIndex + 1))

/-- `Side::get_donor_key`, src/del.rs:96-106. -/
def getDonorKey (side : Side) (donor : Addr) : Prog Nat :=
  match side with
  | .right => edit .write donor fun n => do
    let (k, ks) ← need "del.rs:98 keys.remove(0)" (vecRemove n.keys 0)
    Pure.pure (k, { n with keys := ks })
  | .left => edit .write donor fun n => do
    let (k, ks) ← need "del.rs:104 keys should not be empty" (vecPop n.keys)
    Pure.pure (k, { n with keys := ks })

/-- `Side::get_donor_child`, src/del.rs:108-116. -/
def getDonorChild (side : Side) (donor : Addr) : Prog (Option Child) := do
  let leaf ← isLeaf donor
  if leaf then Pure.pure none
  else
    match side with
    | .right => edit .children donor fun n => do
      let (c, cs) ← need "del.rs:113 children.remove(0)" (vecRemove n.children 0)
      Pure.pure (some c, { n with children := cs })
    | .left => edit .children donor fun n => do
      let (c, cs) ← need "del.rs:114 node is not a leaf" (vecPop n.children)
      Pure.pure (some c, { n with children := cs })

/-- `Side::swap_donor_key_in_father`, src/del.rs:118-133.  (`splice(i..=i, [key])` panics when `i`
is out of range, and returns the old element otherwise.) -/
def swapDonorKeyInFather (side : Side) (father : Addr) (deficientIndex key : Nat) : Prog Nat :=
  let keyIndex := side.getKeyIndex deficientIndex
  edit .write father fun n => do
    let old ← need "del.rs:129 keys.splice" n.keys[keyIndex]?
    let ks ← need "del.rs:129 keys.splice" (vecSplice n.keys keyIndex (keyIndex + 1) [key])
    Pure.pure (old, { n with keys := ks })

/-- `Side::insert_donations_into_deficient_child`, src/del.rs:135-155. -/
def insertDonations (side : Side) (deficientChild : Addr) (key : Nat) (child : Option Child) :
    Prog Unit := do
  match side with
  | .right => do
    edit .write deficientChild fun n => .ok ((), { n with keys := n.keys ++ [key] })
    match child with
    | some c => edit .children deficientChild fun n => .ok ((), { n with children := n.children ++ [c] })
    | none => Pure.pure ()
  | .left => do
    edit .write deficientChild fun n => .ok ((), { n with keys := key :: n.keys })
    match child with
    | some c => edit .children deficientChild fun n => .ok ((), { n with children := c :: n.children })
    | none => Pure.pure ()

/-- `Side::can_rotate`, src/del.rs:157-173. -/
def canRotate (side : Side) (father : Addr) (deficientIndex order : Nat) :
    Prog (Option (Nat × Addr)) := do
  match ← getDonorIndex side father deficientIndex with
  | none => Pure.pure none
  | some donorIndex => do
    let donorChild ← getChild father donorIndex
    let n ← readNode donorChild
    if minKeys order < n.keys.length then Pure.pure (some (donorIndex, donorChild)) else Pure.pure none

/-- `Side::rotate`, src/del.rs:176-205. -/
def rotate (side : Side) (father : Addr) (deficientIndex : Nat) (deficientChild : Addr)
    (donorIndex : Nat) (donor : Addr) (ch : Changes) : Prog Changes := do
  let donatedKey ← getDonorKey side donor
  let donatedChild ← getDonorChild side donor
  let fromFather ← swapDonorKeyInFather side father deficientIndex donatedKey
  insertDonations side deficientChild fromFather donatedChild
  let (ch, c) := ch.addNode donor
  setChild father donorIndex c
  let (ch, c) := ch.addNode deficientChild
  setChild father deficientIndex c
  Pure.pure ch

/-- `Side::maybe_rotate`, src/del.rs:207-232; `none` means no rotation was possible. -/
def maybeRotate (side : Side) (father : Addr) (deficientIndex : Nat) (deficientChild : Addr)
    (order : Nat) (ch : Changes) : Prog (Option Changes) := do
  match ← canRotate side father deficientIndex order with
  | none => Pure.pure none
  | some (donorIndex, donorChild) => do
    let ch ← rotate side father deficientIndex deficientChild donorIndex donorChild ch
    Pure.pure (some ch)

/-- `wchildren!(left).splice(n..n, wchildren!(right).drain(..))`, src/del.rs:275-278: the guard of
`left` is held while that of `right` is taken. -/
def moveChildren (lhs rhs : Addr) (n : Nat) : Prog Unit := do
  lift (.lockChildren lhs)
  under lhs .children (lift (.moveChildren lhs rhs n))

/-- `Side::maybe_merge`, src/del.rs:235-285; `none` means there was no sibling on that side. -/
def maybeMerge (side : Side) (father : Addr) (deficientIndex : Nat) (deficientChild : Addr)
    (ch : Changes) : Prog (Option Changes) := do
  match ← getDonorIndex side father deficientIndex with
  | none => Pure.pure none
  | some donorIndex => do
    let donorChild ← getChild father donorIndex
    let (lhs, rhs) := match side with
      | .right => (deficientChild, donorChild)
      | .left => (donorChild, deficientChild)
    let keyIndex := side.getKeyIndex deficientIndex
    -- src/del.rs:256
    let fromFather ← edit .write father fun n => do
      let (fromFather, ks) ← need "del.rs:256 keys.remove" (vecRemove n.keys keyIndex)
      Pure.pure (fromFather, { n with keys := ks })
    -- src/del.rs:259-263
    let rightChildIndex := match side with
      | .right => deficientIndex + 1
      | .left => deficientIndex
    edit .children father fun n => do
      let cs ← need "del.rs:263 children.splice"
        (vecSplice n.children rightChildIndex (rightChildIndex + 1) [])
      Pure.pure ((), { n with children := cs })
    -- src/del.rs:266-272
    let ln ← readNode lhs
    let nLeftKeys := ln.keys.length
    let rightKeys ← edit .write rhs fun n => .ok (n.keys, { n with keys := [] })
    edit .write lhs fun n => do
      let ks ← need "del.rs:272 keys.splice"
        (vecSplice n.keys nLeftKeys nLeftKeys (fromFather :: rightKeys))
      Pure.pure ((), { n with keys := ks })
    -- src/del.rs:274-278
    let ln ← readNode lhs
    moveChildren lhs rhs ln.children.length
    -- src/del.rs:281-283
    let (ch, leftRef) := ch.addNode lhs
    edit .children father fun n => do
      let cs ← need "del.rs:283 children.splice"
        (vecSplice n.children (rightChildIndex - 1) rightChildIndex [leftRef])
      Pure.pure ((), { n with children := cs })
    Pure.pure (some ch)

end Side

/-- `repair_one`, src/del.rs:292-356.  The father is updated in place. -/
def repairOne (father : Addr) (deficientIndex : Nat) (deficientChild : Addr) (order : Nat)
    (ch : Changes) : Prog Changes := do
  match ← Side.maybeRotate .left father deficientIndex deficientChild order ch with
  | some ch => Pure.pure ch
  | none =>
  match ← Side.maybeRotate .right father deficientIndex deficientChild order ch with
  | some ch => Pure.pure ch
  | none =>
  match ← Side.maybeMerge .left father deficientIndex deficientChild ch with
  | some ch => Pure.pure ch
  | none =>
  match ← Side.maybeMerge .right father deficientIndex deficientChild ch with
  | some ch => Pure.pure ch
  | none => throw (.panic "del.rs:355 this should never happen")

/-- The condition of src/del.rs:377-379: the root has lost its last key. -/
def rootIsEmpty (path : NodePath) (father : Addr) : Prog Bool :=
  if path.isEmpty then do
    let n ← readNode father
    if n.keys.isEmpty then do
      let n ← readNode father
      Pure.pure (n.children.length == 1)
    else Pure.pure false
  else Pure.pure false

/-- The loop of `repair`, src/del.rs:368-402.  `path` is what is left above `father`.  Returns the
reference to propagate, the rest of the path, and the changes. -/
def repairLoop (order : Nat) :
    NodePath → Addr → Nat → Addr → Changes → Prog (Child × NodePath × Changes)
  | path, father, deficientIndex, deficientChild, ch => do
    let ch ← repairOne father deficientIndex deficientChild order ch
    let empty ← rootIsEmpty path father
    if empty then do
      let n ← readNode father
      let c ← orPanic "del.rs:389 children[0]" n.children[0]?
      Pure.pure (c, path, ch)
    else
      match path with
      | [] => do
        let (ch, c) := ch.addNode father
        Pure.pure (c, [], ch)
      | (father', deficientIndex') :: path' => do
        let n ← readNode father
        if n.keys.length ≥ minKeys order then do
          let (ch, c) := ch.addNode father
          Pure.pure (c, path, ch)
        else repairLoop order path' father' deficientIndex' father ch

/-- `repair`, src/del.rs:359-405. -/
def repair (path : NodePath) (order : Nat) (ch : Changes) : Prog (Child × NodePath × Changes) := do
  match path with
  | [] => throw (.panic "del.rs:365 path.len() > 0 should be checked before")
  | (father, deficientIndex) :: path => do
    let deficientChild ← getChild father deficientIndex
    repairLoop order path father deficientIndex deficientChild ch

/-- Everything of `del_compare_and_swap` after the key was found and the swap accepted, up to
`add_changes`: src/del.rs:438-473. -/
def delChanges (key : Bytes) (path : NodePath) : Prog Changes := do
  let v ← version
  let ch := Changes.new v key none
  match path with
  | [] => throw (.panic "del.rs:442 nearest_node always returns at least one node")
  | (curNode, curIndex) :: path => do
    edit .write curNode fun n => do
      let (_, ks) ← need "del.rs:445 keys.remove" (vecRemove n.keys curIndex)
      Pure.pure ((), { n with keys := ks })
    let leaf ← isLeaf curNode
    let path ←
      if leaf then Pure.pure ((curNode, curIndex) :: path)
      else replaceRemovedInternalKey path curNode curIndex
    match path with
    | [] => throw (.panic "del.rs:457 if/else above ensures path is not empty")
    | (bottomNode, _) :: path => do
      let bn ← readNode bottomNode
      let (childRef, path, ch) ←
        if path.isEmpty = false ∧ bn.keys.length < minKeys MAX_KEYS then repair path MAX_KEYS ch
        else
          let (ch, c) := ch.addNode bottomNode
          Pure.pure (c, path, ch)
      if path.isEmpty = false then propagate ch path childRef else Pure.pure ch

/-- `Tree::del_compare_and_swap`, src/del.rs:412-477, up to `add_changes`. -/
def delPrepare (key : Bytes) (cas : KeyValueData → Bool) :
    Prog (Prepared (Option (Bool × Nat))) := do
  match ← getRoot false with
  | none => Pure.pure (.done none)
  | some root => do
    let (matched, path) ← nearestNode root (.finite key)
    match matched with
    | none => Pure.pure (.done none)
    | some seq => do
      let (node, index) ← orPanic "del.rs:430 path[len - 1]" path.head?
      let kv ← getKeyValue node index
      if cas kv = false then Pure.pure (.done (some (false, seq)))
      else do
        let ch ← delChanges key path
        Pure.pure (.commit ch (some (true, seq)))

/-- `Tree::del_compare_and_swap`, src/del.rs:412-477; `Hyperbee::del_compare_and_swap`,
src/hb.rs:119-125. -/
def delCompareAndSwap (key : Bytes) (cas : KeyValueData → Bool) : Prog (Option (Bool × Nat)) := do
  let p ← delPrepare key cas
  commitPrepared p

/-- `Tree::del`, src/del.rs:479-487; `Hyperbee::del`, src/hb.rs:110-112. -/
def del (key : Bytes) : Prog (Option Nat) := do
  match ← delCompareAndSwap key (fun _ => true) with
  | none => Pure.pure none
  | some (deleted, seq) =>
    if deleted then Pure.pure (some seq)
    else throw (.panic "del.rs:486 cas_always_true implies `deleted` always true")

/-- `make_child_key_index_iter`, src/traverse.rs:141-216: the indices the iterator yields. -/
def makeChildKeyIndexIter (conf : TraverseConfig) (node : Addr) (nKeys nChildren : Nat) :
    Prog (List Nat) := do
  let leaf := nChildren == 0
  let stepBy := if leaf then 2 else 1
  let (startingKey, inclusive) :=
    if conf.reversed then (conf.maxValue, conf.maxInclusive)
    else (conf.minValue, conf.minInclusive)
  let (matched, index) ← getIndexOfKey node startingKey
  -- `none` is the early `return Ok(Box::new(0..0))` of src/traverse.rs:171
  let start : Option Nat :=
    if matched.isSome then
      let keyIndex := index * 2 + 1
      if inclusive then some keyIndex
      else if !conf.reversed then some (keyIndex + stepBy)
      else if keyIndex = 1 ∧ stepBy = 2 then none
      else some (keyIndex - stepBy)
    else
      let childIndex := index * 2
      if !leaf then some childIndex
      else if !conf.reversed then some (childIndex + 1)
      else if childIndex = 0 then some 0
      else some (childIndex - 1)
  match start with
  | none => Pure.pure []
  | some start =>
    let (start, stop) :=
      if !conf.reversed then (start, nKeys * 2 + 1)
      else if leaf then (1, start + 1)
      else (0, start + 1)
    let iter := rangeStep start stop stepBy
    Pure.pure (if conf.reversed then iter.reverse else iter)

/-- The end of `Traverse::poll_next` for a node without a child stream, src/traverse.rs:366-446:
find the number of keys and children, build the index iterator, or advance it.  (`nkc` is a future
too; it cannot fail.) -/
def pollSetup (ready : Bool) (f : Frame) : Prog (PollR × List Frame) :=
  match f.nkc with
  | none =>
    if f.nkcFut = false then Pure.pure (.pending true false, [{ f with nkcFut := true }])
    else if ready = false then Pure.pure (.pending true true, [f])
    else do
      -- src/traverse.rs:290-295: the first guard lives until the tuple is complete
      let n ← readNode f.root
      let m ← under f.root .read (readNode f.root)
      Pure.pure (.pending true false, [{ f with nkc := some (n.keys.length, m.children.length) }])
  | some (nKeys, nChildren) =>
    match f.iter with
    | none =>
      match f.iterFut with
      | none => Pure.pure (.pending true false, [{ f with iterFut := some false }])
      | some true => throw (.panic "traverse.rs:402 `async fn` resumed after completion")
      | some false =>
        if ready = false then Pure.pure (.pending true true, [f])
        else do
          match ← tryResult (makeChildKeyIndexIter f.config f.root nKeys nChildren) with
          | .ok iter =>
            Pure.pure (.pending true false, [{ f with iter := some iter, iterFut := some true }])
          | .error e =>
            Pure.pure (.ready (some (.error (.buildIteratorInTraverse e), f.root)) false,
              [{ f with iterFut := some true }])
    | some [] => Pure.pure (.ready none true, [f])
    | some (index :: rest) =>
      if index % 2 = 0 then
        Pure.pure (.pending true false, [{ f with iter := some rest, nextChild := some (index >>> 1) }])
      else
        Pure.pure (.pending true false,
          [{ f with iter := some rest, nextKey := some (index >>> 1, false) }])

/-- `Traverse::poll_next`, src/traverse.rs:314-447.  `ready` says whether the one future polled by
this call completes now; until then it has no effect. -/
def poll (ready : Bool) : List Frame → Prog (PollR × List Frame)
  | [] => throw (.panic "no stream")
  | f :: rest =>
    match f.nextKey with
    | some (index, completed) =>
      -- src/traverse.rs:316-330
      if completed then throw (.panic "traverse.rs:317 `async fn` resumed after completion")
      else if ready = false then Pure.pure (.pending false true, f :: rest)
      else do
        match ← tryResult (getKeyValue f.root index) with
        | .ok kv =>
          if f.config.inBounds kv.key = false then
            Pure.pure (.ready none true, { f with nextKey := some (index, true) } :: rest)
          else
            Pure.pure (.ready (some (.ok kv, f.root)) false, { f with nextKey := none } :: rest)
        | .error e =>
          Pure.pure (.ready (some (.error e, f.root)) false, { f with nextKey := none } :: rest)
    | none =>
      match f.nextChild with
      | some index =>
        -- src/traverse.rs:333-352
        if ready = false then Pure.pure (.pending true true, f :: rest)
        else do
          match ← tryResult (getChild f.root index) with
          | .ok child =>
            Pure.pure (.pending true false, { f with nextChild := none } :: [Frame.new child f.config])
          | .error e =>
            Pure.pure (.ready (some (.error (.getChildInTraverse e), f.root)) false,
              { f with nextChild := none } :: rest)
      | none =>
        match rest with
        | c :: cs => do
          -- src/traverse.rs:355-364
          let (p, rest') ← poll ready (c :: cs)
          match p with
          | .ready none woken => Pure.pure (.pending woken false, [f])
          | .ready (some item) woken => Pure.pure (.ready (some item) woken, f :: rest')
          | .pending woken waiting => Pure.pure (.pending woken waiting, f :: rest')
        | [] => pollSetup ready f

/-- `Tree::traverse`, src/tree.rs:149-159; `Hyperbee::traverse`, src/hb.rs:133-138. -/
def traverse (conf : TraverseConfig) : Prog (List Frame) := do
  match ← getRoot false with
  | none => throw .noRoot
  | some root => Pure.pure [Frame.new root conf]

/-- Poll a stream once per element of the schedule, collecting what it yields (each item mapped by
`post`), until it ends.  Returns the items and the stream, or `none` once it has ended. -/
def drive (post : Except Err KeyValueData → Prog β) :
    List Bool → List Frame → Prog (List β × Option (List Frame))
  | [], fs => Pure.pure ([], some fs)
  | r :: rs, fs => do
    let (p, fs') ← poll r fs
    match p with
    | .ready none _ => Pure.pure ([], none)
    | .ready (some (res, _)) _ => do
      let x ← post res
      let (xs, fin) ← drive post rs fs'
      Pure.pure (x :: xs, fin)
    | .pending _ _ => drive post rs fs'

/-- The stream of `Tree::traverse` drops the node of each item: src/tree.rs:158. -/
def collect (sched : List Bool) (conf : TraverseConfig) :
    Prog (List (Except Err KeyValueData) × Option (List Frame)) := do
  let fs ← traverse conf
  drive Pure.pure sched fs

/-- `TraverseConfigBuilder::build`, then `Hyperbee::traverse` (src/hb.rs:133-138), then one
`poll_next` per element of the schedule until the stream ends. -/
def traverseSession (b : TraverseConfigBuilder) (sched : List Bool) :
    Prog (List (Except Err KeyValueData) × Bool) :=
  match b.build with
  | .error e => throw e
  | .ok conf => do
    let (xs, fin) ← collect sched conf
    Pure.pure (xs, fin.isNone)

/-- The reply of a call: an `Err` (or a panic) is reported as such. -/
def replyOf (f : α → Reply) : Prog α → Prog Reply
  | .pure a => .pure (f a)
  | .throw e => .pure (.error e)
  | .step x k => .step x fun r => (k r).replyOf f

/-- One call through a handle: the methods of `Hyperbee`, src/hb.rs:45-187.  (`reopen` is no call;
see `exec` in `Model/Session`.) -/
def exec : Cmd → Prog Reply
  | .version => replyOf .version version
  | .get k => replyOf .got (get k)
  | .put k v => replyOf (fun r => .put r.1 r.2) (put k v)
  | .putCas k v cas => replyOf (fun r => .putCas r.1 r.2) (putCompareAndSwap k v cas)
  | .del k => replyOf .del (del k)
  | .delCas k cas => replyOf .delCas (delCompareAndSwap k cas)
  | .createHeader m => replyOf .created (createHeader m)
  | .traverse b sched => replyOf (fun r => .items r.1 r.2) (traverseSession b sched)
  | .reopen => .pure .opened

/-! ## Running several programs on one state -/

/-- Take one step, if there is one to take. -/
def next : Prog α → St → Prog α × St
  | .pure a, s => (.pure a, s)
  | .throw e, s => (.throw e, s)
  | .step x k, s => (k (x.run s).1, (x.run s).2)

/-- What the program has returned, if it has. -/
def result : Prog α → Option α
  | .pure a => some a
  | _ => none

/-- Take `n` steps, or as many as there are: a future that is dropped then. -/
def after : Nat → Prog α → St → Prog α × St
  | 0, p, s => (p, s)
  | n + 1, p, s => after n (p.next s).1 (p.next s).2

/-- Let program number `i` take one step, for each `i` of the schedule in turn.  A program that is
not scheduled again has been dropped, or has not been polled yet. -/
def interleave : List Nat → List (Prog α) → St → List (Prog α) × St
  | [], ps, s => (ps, s)
  | i :: is, ps, s =>
    match ps[i]? with
    | none => interleave is ps s
    | some p => interleave is (ps.set i (p.next s).1) (p.next s).2

/-- The lock the next step asks for. -/
def needs : Prog α → Option (Addr × Mode)
  | .step x _ => x.needs
  | _ => none

/-- The guards held now: the next step is taken under them. -/
def holds : Prog α → List (Addr × Mode)
  | .step x _ => x.holds
  | _ => []

end Prog

/-- A guard that is held keeps out a request. -/
def Mode.clash : (want held : Mode) → Bool
  | .read, .read => false
  | .children, .read => false
  | _, _ => true

/-- Calls in flight on one handle. -/
structure Flight (α : Type) where
  /-- the calls -/
  calls : List (Prog α)
  /-- the state they share -/
  st : St
  /-- the calls that have asked for a lock and wait, in the order in which they asked -/
  queue : List Nat

namespace Flight

/-- No guard that is held keeps the request out. -/
def free (calls : List (Prog α)) (a : Addr) (m : Mode) : Bool :=
  calls.all fun q => q.holds.all fun g => !(g.1 == a && m.clash g.2)

/-- Nobody asked for the lock of this node before call number `i`. -/
def first (calls : List (Prog α)) (queue : List Nat) (i : Nat) (a : Addr) : Bool :=
  (queue.takeWhile (· != i)).all fun j =>
    match calls[j]? with
    | some q => match q.needs with
      | some (b, _) => b != a
      | none => true
    | none => true

/-- The step is granted the lock it asks for. -/
def grants (w : Flight α) (i : Nat) (p : Prog α) : Bool :=
  match p.needs with
  | none => true
  | some (a, m) => free w.calls a m && first w.calls w.queue i a

/-- Call number `i` is polled: it takes a step if it is granted the lock for it, or else it waits.
(tokio's `RwLock` is fair: a request waits while an incompatible guard is held, and while an earlier
request waits.) -/
def poll (w : Flight α) (i : Nat) : Flight α :=
  match w.calls[i]? with
  | some (.step x k) =>
    if w.grants i (.step x k) then
      ⟨w.calls.set i (k (x.run w.st).1), (x.run w.st).2, w.queue.filter (· != i)⟩
    else if i ∈ w.queue then w
    else { w with queue := w.queue ++ [i] }
  | _ => w

/-- Poll the calls in the order of the schedule. -/
def run (sched : List Nat) (w : Flight α) : Flight α := sched.foldl poll w

/-- The calls are made on the state. -/
def start (calls : List (Prog α)) (s : St) : Flight α := ⟨calls, s, []⟩

end Flight

/-- A call that reads: `version`, `get`, `traverse`, src/hb.rs:45-49, 73-77 and 131-140. -/
def Cmd.looks : Cmd → Bool
  | .version => true
  | .get _ => true
  | .traverse _ _ => true
  | _ => false

end Hyperbee
