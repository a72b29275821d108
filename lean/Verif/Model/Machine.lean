import Verif.Model.Async
/-!
# Machine integers

In the other models `usize` and `u64` are natural numbers.  Here the sums, differences, products and
narrowing conversions of the code are those of a machine whose `usize` has so many bits.  A result that
does not fit panics in a build with overflow checks, and is cut off in one without.

The programs are those of `Model/Async`, with the arithmetic written out; what has none is taken from
there.  Simplifications: `len()` of a vector is taken to fit a `usize`, and the conversion of a `usize` to
`u64` (src/blocks.rs:168, src/changes.rs:25-29) to keep its value, as `usize` has at most 64 bits.  The block
numbers are `u64`; the only sum or difference of them is `version - 1`.  Sums inside statements under
a guard are made before the guard is taken.  `key_index..=key_index` panics in every build when the
end does not fit; here it does so in builds with overflow checks.
-/

namespace Hyperbee

/-- A target and a kind of build. -/
structure Machine where
  /-- the bits of `usize` -/
  width : Nat
  /-- with overflow checks -/
  checked : Bool

namespace Machine

/-- `a + b` -/
def add (μ : Machine) (a b : Nat) : Prog Nat :=
  if a + b < 2 ^ μ.width then Pure.pure (a + b)
  else if μ.checked then Prog.throw (.panic "attempt to add with overflow")
  else Pure.pure ((a + b) % 2 ^ μ.width)

/-- `a * b` -/
def mul (μ : Machine) (a b : Nat) : Prog Nat :=
  if a * b < 2 ^ μ.width then Pure.pure (a * b)
  else if μ.checked then Prog.throw (.panic "attempt to multiply with overflow")
  else Pure.pure ((a * b) % 2 ^ μ.width)

/-- `a - b` of numbers with so many bits -/
def subOf (bits : Nat) (μ : Machine) (a b : Nat) : Prog Nat :=
  if b ≤ a then Pure.pure (a - b)
  else if μ.checked then Prog.throw (.panic "attempt to subtract with overflow")
  else Pure.pure (2 ^ bits + a - b)

/-- `a - b` -/
def sub (μ : Machine) (a b : Nat) : Prog Nat := subOf μ.width μ a b

/-- `usize::try_from(n)` -/
def tryFrom (μ : Machine) (n : Nat) : Prog Nat :=
  if n < 2 ^ μ.width then Pure.pure n else Prog.throw (.u64ToUsize n)

/-- `n as usize` -/
def asUsize (μ : Machine) (n : Nat) : Nat := n % 2 ^ μ.width

/-- `BlockEntry::get_tree_node`, src/blocks.rs:217-226. -/
def getTreeNode (μ : Machine) (e : BlockEntry) (offset : Nat) : Prog Addr := do
  let offset ← μ.tryFrom offset
  Prog.orPanic "blocks.rs:224 offset *should* always point to a real node" e.nodes[offset]?

/-- `Children::get_child` / `Node::get_child`, src/lib.rs:135-148 and 260-262. -/
def getChild (μ : Machine) (a : Addr) (index : Nat) : Prog Addr := do
  let n ← Prog.readNode a
  Prog.under a .read do
    let c ← Prog.orPanic "lib.rs:137 children[index]" n.children[index]?
    let block ← Prog.blocksGet c.seq
    μ.getTreeNode block c.offset

/-- `Node::insert` and `Children::insert`, src/lib.rs:266-270 and 113-132, with the range `start..stop`. -/
def nodeInsert (μ : Machine) (a : Addr) (key : Nat) (children : List Child) (start stop : Nat) : Prog Unit := do
  -- `index + replace_split_child`, src/lib.rs:131, is not reached when there are no children
  let childStop ← if children.isEmpty then Pure.pure start else μ.add start 1
  Prog.edit .write a fun n => do
    let ks ← Prog.need "lib.rs:268 keys.splice" (vecSplice n.keys start stop [key])
    let cs ← Prog.need "lib.rs:128 children.splice"
      (if children.isEmpty then some n.children else vecSplice n.children start childStop children)
    Pure.pure ((), ⟨ks, cs⟩)

/-- The `while low <= high` loop of `get_index_of_key`, src/lib.rs:323-353. -/
def searchLoop (μ : Machine) (a : Addr) (key : LimitValue) : Nat → Nat → Nat → Prog (Option Nat × Nat)
  | 0, _, _ => Prog.throw .diverge
  | fuel + 1, low, high =>
    if low ≤ high then do
      let d ← μ.sub high low
      let mid ← μ.add low (d >>> 1)
      let kv ← Prog.getKeyValue a mid
      if key.eqBytes kv.key then Pure.pure (some kv.seq, mid)
      else if key.cmp kv.key = .lt then
        if mid = 0 then Pure.pure (none, low)
        else do
          let high ← μ.sub mid 1
          searchLoop μ a key fuel low high
      else do
        let low ← μ.add mid 1
        searchLoop μ a key fuel low high
    else Pure.pure (none, low)

/-- `get_index_of_key`, src/lib.rs:307-356. -/
def getIndexOfKey (μ : Machine) (a : Addr) (key : LimitValue) : Prog (Option Nat × Nat) := do
  let n ← Prog.readNode a
  let nKeys := n.keys.length
  if nKeys = 0 then Pure.pure (none, nKeys)
  else do
    let high ← μ.sub nKeys 1
    μ.searchLoop a key (nKeys + 1) 0 high

/-- The loop of `nearest_node`, src/lib.rs:379-395. -/
def nearestLoop (μ : Machine) (key : LimitValue) : Nat → Addr → NodePath → Prog (Option Nat × NodePath)
  | 0, _, _ => Prog.throw .diverge
  | fuel + 1, cur, path => do
    let (matched, childIndex) ← μ.getIndexOfKey cur key
    let path := (cur, childIndex) :: path
    let leaf ← Prog.isLeaf cur
    if matched.isSome || leaf then Pure.pure (matched, path)
    else do
      let next ← μ.getChild cur childIndex
      nearestLoop μ key fuel next path

/-- `nearest_node`, src/lib.rs:372-396. -/
def nearestNode (μ : Machine) (a : Addr) (key : LimitValue) : Prog (Option Nat × NodePath) := do
  let fuel ← Prog.descentFuel
  μ.nearestLoop key fuel a []

/-- The loop of `reorder_nodes`, src/blocks.rs:162-175. -/
def reorderLoop (μ : Machine) (seq : Nat) (nodes : List Addr) :
    Nat → List (Addr × Nat) → List Addr → Prog (List Addr)
  | _, [], out => Pure.pure out
  | 0, _ :: _, _ => Prog.throw .diverge
  | fuel + 1, (node, childIndex) :: stack, out => do
    let n ← Prog.readNode node
    let c ← Prog.orPanic "blocks.rs:166 children[child_index]" n.children[childIndex]?
    let oldOffset := c.offset
    Prog.edit .children node fun n => do
      let c ← Prog.need "blocks.rs:168 children[child_index]" n.children[childIndex]?
      let cs ← Prog.need "blocks.rs:168 children[child_index]"
        (vecSet n.children childIndex ⟨c.seq, out.length⟩)
      Pure.pure ((), { n with children := cs })
    let childsNode ← Prog.orPanic "blocks.rs:170 nodes[old_offset]" nodes[μ.asUsize oldOffset]?
    let more ← Prog.takeChildrenWithSeq childsNode seq
    reorderLoop μ seq nodes fuel (more ++ stack) (out ++ [childsNode])

/-- `reorder_nodes`, src/blocks.rs:155-177. -/
def reorderNodes (μ : Machine) (seq : Nat) (nodes : List Addr) : Prog (List Addr) := do
  let root ← Prog.orPanic "blocks.rs:156 nodes[len - 1]" nodes.getLast?
  let stack ← Prog.takeChildrenWithSeq root seq
  μ.reorderLoop seq nodes nodes.length stack [root]

/-- `Blocks::add_changes`, src/blocks.rs:100-131. -/
def addChanges (μ : Machine) (ch : Changes) : Prog Nat := do
  let reordered ← μ.reorderNodes ch.seq ch.nodes
  let ns ← Prog.readNodes reordered
  Prog.coreAppend (encodeBlock ch.key ch.value ns)

/-- `Tree::get_root`, src/tree.rs:53-72. -/
def getRoot (μ : Machine) (ensure : Bool) : Prog (Option Addr) := do
  let v ← Prog.version
  if v ≤ 1 then
    if v = 0 ∧ ensure = true then do
      let _ ← Prog.ensureHeader
      Pure.pure none
    else Pure.pure none
  else do
    let last ← subOf 64 μ v 1
    let block ← Prog.blocksGet last
    let root ← μ.getTreeNode block 0
    Pure.pure (some root)

/-- `Tree::get`, src/tree.rs:90-104; `Hyperbee::get`, src/hb.rs:75-77. -/
def get (μ : Machine) (key : Bytes) : Prog (Option (Nat × Option Bytes)) := do
  match ← μ.getRoot false with
  | none => Pure.pure none
  | some node => do
    let (matched, path) ← μ.nearestNode node (.finite key)
    if matched.isSome then do
      let (node, keyIndex) ← Prog.orPanic "tree.rs:99 path.last()" path.head?
      let kv ← Prog.getKeyValue node keyIndex
      Pure.pure (some (kv.seq, kv.value))
    else Pure.pure none

/-- The `loop` of `put_compare_and_swap` and the code after it, src/put.rs:119-184. -/
def putLoop (μ : Machine) (matched : Bool) : NodePath → Changes → Nat → List Child → Prog Changes
  | [], ch, curKey, children => do
    let newRoot ← Prog.alloc ⟨[curKey], children⟩
    let (ch, _) := ch.addNode newRoot
    Pure.pure ch
  | (curNode, curIndex) :: path, ch, curKey, children => do
    let n ← Prog.readNode curNode
    let room := n.keys.length < MAX_KEYS
    if matched = true ∨ room then do
      let stop ← if matched then μ.add curIndex 1 else Pure.pure curIndex
      μ.nodeInsert curNode curKey children curIndex stop
      let (ch, child) := ch.addNode curNode
      if path.isEmpty then Pure.pure ch
      else Prog.propagate ch path child
    else do
      μ.nodeInsert curNode curKey children curIndex curIndex
      let (left, midKey, right) ← Prog.split curNode
      let (ch, cl) := ch.addNode left
      let (ch, cr) := ch.addNode right
      putLoop μ matched path ch midKey [cl, cr]

/-- `Tree::put_compare_and_swap`, src/put.rs:74-188, up to `add_changes`. -/
def putPrepare (μ : Machine) (key : Bytes) (value : Option Bytes)
    (cas : Option KeyValueData → KeyValueData → Bool) :
    Prog (Prepared (Option Nat × Option Nat)) := do
  let maybeRoot ← μ.getRoot true
  let seq ← Prog.version
  let changes := Changes.new seq key value
  let newKeyData : KeyValueData := ⟨seq, key, value⟩
  match maybeRoot with
  | none =>
    if cas none newKeyData = false then Pure.pure (.done (none, none))
    else do
      let ch ← μ.putLoop false [] changes seq []
      Pure.pure (.commit ch (none, some seq))
  | some root => do
    let (matched, path) ← μ.nearestNode root (.finite key)
    let oldKeyData ←
      if matched.isSome then do
        let (node, index) ← Prog.orPanic "put.rs:109 path[path.len() - 1]" path.head?
        let kv ← Prog.getKeyValue node index
        Pure.pure (some kv)
      else Pure.pure none
    if cas oldKeyData newKeyData = false then Pure.pure (.done (matched, none))
    else do
      let ch ← μ.putLoop matched.isSome path changes seq []
      Pure.pure (.commit ch (matched, some seq))

/-- Write the block, then return. -/
def commitPrepared (μ : Machine) : Prepared α → Prog α
  | .done a => Pure.pure a
  | .commit ch a => do
    let _ ← μ.addChanges ch
    Pure.pure a

/-- `Tree::put_compare_and_swap`, src/put.rs:74-188. -/
def putCompareAndSwap (μ : Machine) (key : Bytes) (value : Option Bytes)
    (cas : Option KeyValueData → KeyValueData → Bool) : Prog (Option Nat × Option Nat) := do
  let p ← μ.putPrepare key value cas
  μ.commitPrepared p

/-- `Tree::put`, src/put.rs:198-210. -/
def put (μ : Machine) (key : Bytes) (value : Option Bytes) : Prog (Option Nat × Nat) := do
  let (old, new) ← μ.putCompareAndSwap key value (fun _ _ => true)
  let new ← Prog.orPanic "put.rs:208 with cas_always_true this should never be none" new
  Pure.pure (old, new)

/-- `Side::replace_removed_internal_key_with_a_key_from_leaf`, src/del.rs:34-70. -/
def replaceRemovedInternalKey (μ : Machine) (path : NodePath) (node : Addr) (keyIndex : Nat) :
    Prog NodePath := do
  let leftChildIndex := keyIndex
  let rightChildIndex ← μ.add leftChildIndex 1
  let leftChild ← μ.getChild node leftChildIndex
  let (_, leftPath) ← μ.nearestNode leftChild (.infinite .positive)
  let (leftLeaf, _) ← Prog.orPanic "del.rs:44 left_path.last()" leftPath.head?
  let leftNode ← Prog.readNode leftLeaf
  let numLeftKeys := leftNode.keys.length
  let rightChild ← μ.getChild node rightChildIndex
  let (_, rightPath) ← μ.nearestNode rightChild (.infinite .negative)
  let (rightLeaf, _) ← Prog.orPanic "del.rs:48 right_path.last()" rightPath.head?
  let rightNode ← Prog.readNode rightLeaf
  let numRightKeys := rightNode.keys.length
  let (childIndex, replacementKey, pathToBottom) ←
    if numLeftKeys < numRightKeys then do
      let donor ← Prog.edit .write rightLeaf fun n => do
        let (donor, ks) ← Prog.need "del.rs:51 keys.remove(0)" (vecRemove n.keys 0)
        Pure.pure (donor, { n with keys := ks })
      Pure.pure (rightChildIndex, donor, rightPath)
    else do
      let donor ← Prog.edit .write leftLeaf fun n => do
        let (donor, ks) ← Prog.need "del.rs:62 keys.pop()" (vecPop n.keys)
        Pure.pure (donor, { n with keys := ks })
      Pure.pure (leftChildIndex, donor, leftPath)
  Prog.edit .write node fun n => do
    let ks ← Prog.need "del.rs:65 keys.insert" (vecInsert n.keys keyIndex replacementKey)
    Pure.pure ((), { n with keys := ks })
  Pure.pure (pathToBottom ++ (node, childIndex) :: path)

/-- `Side::get_donor_index`, src/del.rs:75-86. -/
def getDonorIndex (μ : Machine) (side : Side) (father : Addr) (deficientIndex : Nat) : Prog (Option Nat) :=
  match side with
  | .left =>
    if deficientIndex = 0 then Pure.pure none
    else do
      let i ← μ.sub deficientIndex 1
      Pure.pure (some i)
  | .right => do
    let i ← μ.add deficientIndex 1
    let n ← Prog.readNode father
    if i ≥ n.children.length then Pure.pure none
    else do
      let i ← μ.add deficientIndex 1
      Pure.pure (some i)

/-- `Side::get_key_index`, src/del.rs:89-94. -/
def getKeyIndex (μ : Machine) (side : Side) (deficientIndex : Nat) : Prog Nat :=
  match side with
  | .right => Pure.pure deficientIndex
  | .left => μ.sub deficientIndex 1

/-- `Side::swap_donor_key_in_father`, src/del.rs:118-133. -/
def swapDonorKeyInFather (μ : Machine) (side : Side) (father : Addr) (deficientIndex key : Nat) :
    Prog Nat := do
  let keyIndex ← μ.getKeyIndex side deficientIndex
  let stop ← μ.add keyIndex 1
  Prog.edit .write father fun n => do
    let old ← Prog.need "del.rs:129 keys.splice" n.keys[keyIndex]?
    let ks ← Prog.need "del.rs:129 keys.splice" (vecSplice n.keys keyIndex stop [key])
    Pure.pure (old, { n with keys := ks })

/-- `Side::can_rotate`, src/del.rs:157-173. -/
def canRotate (μ : Machine) (side : Side) (father : Addr) (deficientIndex order : Nat) :
    Prog (Option (Nat × Addr)) := do
  match ← μ.getDonorIndex side father deficientIndex with
  | none => Pure.pure none
  | some donorIndex => do
    let donorChild ← μ.getChild father donorIndex
    let n ← Prog.readNode donorChild
    if minKeys order < n.keys.length then Pure.pure (some (donorIndex, donorChild)) else Pure.pure none

/-- `Side::rotate`, src/del.rs:176-205. -/
def rotate (μ : Machine) (side : Side) (father : Addr) (deficientIndex : Nat) (deficientChild : Addr)
    (donorIndex : Nat) (donor : Addr) (ch : Changes) : Prog Changes := do
  let donatedKey ← Prog.Side.getDonorKey side donor
  let donatedChild ← Prog.Side.getDonorChild side donor
  let fromFather ← μ.swapDonorKeyInFather side father deficientIndex donatedKey
  Prog.Side.insertDonations side deficientChild fromFather donatedChild
  let (ch, c) := ch.addNode donor
  Prog.setChild father donorIndex c
  let (ch, c) := ch.addNode deficientChild
  Prog.setChild father deficientIndex c
  Pure.pure ch

/-- `Side::maybe_rotate`, src/del.rs:207-232. -/
def maybeRotate (μ : Machine) (side : Side) (father : Addr) (deficientIndex : Nat) (deficientChild : Addr)
    (order : Nat) (ch : Changes) : Prog (Option Changes) := do
  match ← μ.canRotate side father deficientIndex order with
  | none => Pure.pure none
  | some (donorIndex, donorChild) => do
    let ch ← μ.rotate side father deficientIndex deficientChild donorIndex donorChild ch
    Pure.pure (some ch)

/-- `Side::maybe_merge`, src/del.rs:235-285. -/
def maybeMerge (μ : Machine) (side : Side) (father : Addr) (deficientIndex : Nat) (deficientChild : Addr)
    (ch : Changes) : Prog (Option Changes) := do
  match ← μ.getDonorIndex side father deficientIndex with
  | none => Pure.pure none
  | some donorIndex => do
    let donorChild ← μ.getChild father donorIndex
    let (lhs, rhs) := match side with
      | .right => (deficientChild, donorChild)
      | .left => (donorChild, deficientChild)
    let keyIndex ← μ.getKeyIndex side deficientIndex
    let fromFather ← Prog.edit .write father fun n => do
      let (fromFather, ks) ← Prog.need "del.rs:256 keys.remove" (vecRemove n.keys keyIndex)
      Pure.pure (fromFather, { n with keys := ks })
    let rightChildIndex ← match side with
      | .right => μ.add deficientIndex 1
      | .left => Pure.pure deficientIndex
    let stop ← μ.add rightChildIndex 1
    Prog.edit .children father fun n => do
      let cs ← Prog.need "del.rs:263 children.splice" (vecSplice n.children rightChildIndex stop [])
      Pure.pure ((), { n with children := cs })
    let ln ← Prog.readNode lhs
    let nLeftKeys := ln.keys.length
    let rightKeys ← Prog.edit .write rhs fun n => .ok (n.keys, { n with keys := [] })
    Prog.edit .write lhs fun n => do
      let ks ← Prog.need "del.rs:272 keys.splice"
        (vecSplice n.keys nLeftKeys nLeftKeys (fromFather :: rightKeys))
      Pure.pure ((), { n with keys := ks })
    let ln ← Prog.readNode lhs
    Prog.Side.moveChildren lhs rhs ln.children.length
    let (ch, leftRef) := ch.addNode lhs
    let leftChildIndex ← μ.sub rightChildIndex 1
    Prog.edit .children father fun n => do
      let cs ← Prog.need "del.rs:283 children.splice"
        (vecSplice n.children leftChildIndex rightChildIndex [leftRef])
      Pure.pure ((), { n with children := cs })
    Pure.pure (some ch)

/-- `repair_one`, src/del.rs:292-356. -/
def repairOne (μ : Machine) (father : Addr) (deficientIndex : Nat) (deficientChild : Addr) (order : Nat)
    (ch : Changes) : Prog Changes := do
  match ← μ.maybeRotate .left father deficientIndex deficientChild order ch with
  | some ch => Pure.pure ch
  | none =>
  match ← μ.maybeRotate .right father deficientIndex deficientChild order ch with
  | some ch => Pure.pure ch
  | none =>
  match ← μ.maybeMerge .left father deficientIndex deficientChild ch with
  | some ch => Pure.pure ch
  | none =>
  match ← μ.maybeMerge .right father deficientIndex deficientChild ch with
  | some ch => Pure.pure ch
  | none => Prog.throw (.panic "del.rs:355 this should never happen")

/-- The loop of `repair`, src/del.rs:368-402. -/
def repairLoop (μ : Machine) (order : Nat) :
    NodePath → Addr → Nat → Addr → Changes → Prog (Child × NodePath × Changes)
  | path, father, deficientIndex, deficientChild, ch => do
    let ch ← μ.repairOne father deficientIndex deficientChild order ch
    let empty ← Prog.rootIsEmpty path father
    if empty then do
      let n ← Prog.readNode father
      let c ← Prog.orPanic "del.rs:389 children[0]" n.children[0]?
      Pure.pure (c, path, ch)
    else
      match path with
      | [] => do
        let (ch, c) := ch.addNode father
        Pure.pure (c, [], ch)
      | (father', deficientIndex') :: path' => do
        let n ← Prog.readNode father
        if n.keys.length ≥ minKeys order then do
          let (ch, c) := ch.addNode father
          Pure.pure (c, path, ch)
        else repairLoop μ order path' father' deficientIndex' father ch

/-- `repair`, src/del.rs:359-405. -/
def repair (μ : Machine) (path : NodePath) (order : Nat) (ch : Changes) :
    Prog (Child × NodePath × Changes) := do
  match path with
  | [] => Prog.throw (.panic "del.rs:365 path.len() > 0 should be checked before")
  | (father, deficientIndex) :: path => do
    let deficientChild ← μ.getChild father deficientIndex
    μ.repairLoop order path father deficientIndex deficientChild ch

/-- `del_compare_and_swap` after the key was found and the swap accepted, up to `add_changes`:
src/del.rs:438-473. -/
def delChanges (μ : Machine) (key : Bytes) (path : NodePath) : Prog Changes := do
  let v ← Prog.version
  let ch := Changes.new v key none
  match path with
  | [] => Prog.throw (.panic "del.rs:442 nearest_node always returns at least one node")
  | (curNode, curIndex) :: path => do
    Prog.edit .write curNode fun n => do
      let (_, ks) ← Prog.need "del.rs:445 keys.remove" (vecRemove n.keys curIndex)
      Pure.pure ((), { n with keys := ks })
    let leaf ← Prog.isLeaf curNode
    let path ←
      if leaf then Pure.pure ((curNode, curIndex) :: path)
      else μ.replaceRemovedInternalKey path curNode curIndex
    match path with
    | [] => Prog.throw (.panic "del.rs:457 if/else above ensures path is not empty")
    | (bottomNode, _) :: path => do
      let bn ← Prog.readNode bottomNode
      let (childRef, path, ch) ←
        if path.isEmpty = false ∧ bn.keys.length < minKeys MAX_KEYS then μ.repair path MAX_KEYS ch
        else
          let (ch, c) := ch.addNode bottomNode
          Pure.pure (c, path, ch)
      if path.isEmpty = false then Prog.propagate ch path childRef else Pure.pure ch

/-- `Tree::del_compare_and_swap`, src/del.rs:412-477, up to `add_changes`. -/
def delPrepare (μ : Machine) (key : Bytes) (cas : KeyValueData → Bool) :
    Prog (Prepared (Option (Bool × Nat))) := do
  match ← μ.getRoot false with
  | none => Pure.pure (.done none)
  | some root => do
    let (matched, path) ← μ.nearestNode root (.finite key)
    match matched with
    | none => Pure.pure (.done none)
    | some seq => do
      let (node, index) ← Prog.orPanic "del.rs:430 path[len - 1]" path.head?
      let kv ← Prog.getKeyValue node index
      if cas kv = false then Pure.pure (.done (some (false, seq)))
      else do
        let ch ← μ.delChanges key path
        Pure.pure (.commit ch (some (true, seq)))

/-- `Tree::del_compare_and_swap`, src/del.rs:412-477. -/
def delCompareAndSwap (μ : Machine) (key : Bytes) (cas : KeyValueData → Bool) :
    Prog (Option (Bool × Nat)) := do
  let p ← μ.delPrepare key cas
  μ.commitPrepared p

/-- `Tree::del`, src/del.rs:479-487. -/
def del (μ : Machine) (key : Bytes) : Prog (Option Nat) := do
  match ← μ.delCompareAndSwap key (fun _ => true) with
  | none => Pure.pure none
  | some (deleted, seq) =>
    if deleted then Pure.pure (some seq)
    else Prog.throw (.panic "del.rs:486 cas_always_true implies `deleted` always true")

/-- The start of the iterator in `make_child_key_index_iter`, src/traverse.rs:155-193; `none` is the early
return of src/traverse.rs:171. -/
def startIndex (μ : Machine) (reversed inclusive leaf found : Bool) (index : Nat) : Prog (Option Nat) := do
  let stepBy := if leaf then 2 else 1
  if found then do
    let twice ← μ.mul index 2
    let keyIndex ← μ.add twice 1
    if inclusive then Pure.pure (some keyIndex)
    else if !reversed then do
      let i ← μ.add keyIndex stepBy
      Pure.pure (some i)
    else if keyIndex = 1 ∧ stepBy = 2 then Pure.pure none
    else do
      let i ← μ.sub keyIndex stepBy
      Pure.pure (some i)
  else do
    let childIndex ← μ.mul index 2
    if !leaf then Pure.pure (some childIndex)
    else if !reversed then do
      let i ← μ.add childIndex 1
      Pure.pure (some i)
    else if childIndex = 0 then Pure.pure (some 0)
    else do
      let i ← μ.sub childIndex 1
      Pure.pure (some i)

/-- `make_child_key_index_iter`, src/traverse.rs:141-216. -/
def makeChildKeyIndexIter (μ : Machine) (conf : TraverseConfig) (node : Addr) (nKeys nChildren : Nat) :
    Prog (List Nat) := do
  let leaf := nChildren == 0
  let stepBy := if leaf then 2 else 1
  let (startingKey, inclusive) :=
    if conf.reversed then (conf.maxValue, conf.maxInclusive)
    else (conf.minValue, conf.minInclusive)
  let (matched, index) ← μ.getIndexOfKey node startingKey
  match ← μ.startIndex conf.reversed inclusive leaf matched.isSome index with
  | none => Pure.pure []
  | some start => do
    let (start, stop) ←
      if !conf.reversed then do
        let twice ← μ.mul nKeys 2
        let stop ← μ.add twice 1
        Pure.pure (start, stop)
      else do
        let stop ← μ.add start 1
        Pure.pure (if leaf then 1 else 0, stop)
    let iter := rangeStep start stop stepBy
    Pure.pure (if conf.reversed then iter.reverse else iter)

/-- The end of `Traverse::poll_next` for a node without a child stream, src/traverse.rs:366-446. -/
def pollSetup (μ : Machine) (ready : Bool) (f : Frame) : Prog (PollR × List Frame) :=
  match f.nkc with
  | none =>
    if f.nkcFut = false then Pure.pure (.pending true false, [{ f with nkcFut := true }])
    else if ready = false then Pure.pure (.pending true true, [f])
    else do
      let n ← Prog.readNode f.root
      let m ← Prog.under f.root .read (Prog.readNode f.root)
      Pure.pure (.pending true false, [{ f with nkc := some (n.keys.length, m.children.length) }])
  | some (nKeys, nChildren) =>
    match f.iter with
    | none =>
      match f.iterFut with
      | none => Pure.pure (.pending true false, [{ f with iterFut := some false }])
      | some true => Prog.throw (.panic "traverse.rs:402 `async fn` resumed after completion")
      | some false =>
        if ready = false then Pure.pure (.pending true true, [f])
        else do
          match ← Prog.tryResult (μ.makeChildKeyIndexIter f.config f.root nKeys nChildren) with
          | .ok iter =>
            Pure.pure (.pending true false, [{ f with iter := some iter, iterFut := some true }])
          | .error e =>
            Pure.pure (.ready (some (.error (.buildIteratorInTraverse e), f.root)) false,
              [{ f with iterFut := some true }])
    | some [] => Pure.pure (.ready none true, [f])
    | some (index :: rest) =>
      if index % 2 = 0 then
        Pure.pure (.pending true false, [{ f with iter := some rest, nextChild := some (index >>> 1) }])
      else
        Pure.pure (.pending true false,
          [{ f with iter := some rest, nextKey := some (index >>> 1, false) }])

/-- `Traverse::poll_next`, src/traverse.rs:314-447. -/
def poll (μ : Machine) (ready : Bool) : List Frame → Prog (PollR × List Frame)
  | [] => Prog.throw (.panic "no stream")
  | f :: rest =>
    match f.nextKey with
    | some (index, completed) =>
      if completed then Prog.throw (.panic "traverse.rs:317 `async fn` resumed after completion")
      else if ready = false then Pure.pure (.pending false true, f :: rest)
      else do
        match ← Prog.tryResult (Prog.getKeyValue f.root index) with
        | .ok kv =>
          if f.config.inBounds kv.key = false then
            Pure.pure (.ready none true, { f with nextKey := some (index, true) } :: rest)
          else
            Pure.pure (.ready (some (.ok kv, f.root)) false, { f with nextKey := none } :: rest)
        | .error e =>
          Pure.pure (.ready (some (.error e, f.root)) false, { f with nextKey := none } :: rest)
    | none =>
      match f.nextChild with
      | some index =>
        if ready = false then Pure.pure (.pending true true, f :: rest)
        else do
          match ← Prog.tryResult (μ.getChild f.root index) with
          | .ok child =>
            Pure.pure (.pending true false, { f with nextChild := none } :: [Frame.new child f.config])
          | .error e =>
            Pure.pure (.ready (some (.error (.getChildInTraverse e), f.root)) false,
              { f with nextChild := none } :: rest)
      | none =>
        match rest with
        | c :: cs => do
          let (p, rest') ← poll μ ready (c :: cs)
          match p with
          | .ready none woken => Pure.pure (.pending woken false, [f])
          | .ready (some item) woken => Pure.pure (.ready (some item) woken, f :: rest')
          | .pending woken waiting => Pure.pure (.pending woken waiting, f :: rest')
        | [] => μ.pollSetup ready f

/-- `Tree::traverse`, src/tree.rs:149-159. -/
def traverse (μ : Machine) (conf : TraverseConfig) : Prog (List Frame) := do
  match ← μ.getRoot false with
  | none => Prog.throw .noRoot
  | some root => Pure.pure [Frame.new root conf]

/-- Poll a stream once per element of the schedule until it ends; see `Prog.drive`. -/
def drive (μ : Machine) (post : Except Err KeyValueData → Prog β) :
    List Bool → List Frame → Prog (List β × Option (List Frame))
  | [], fs => Pure.pure ([], some fs)
  | r :: rs, fs => do
    let (p, fs') ← μ.poll r fs
    match p with
    | .ready none _ => Pure.pure ([], none)
    | .ready (some (res, _)) _ => do
      let x ← post res
      let (xs, fin) ← drive μ post rs fs'
      Pure.pure (x :: xs, fin)
    | .pending _ _ => drive μ post rs fs'

/-- `TraverseConfigBuilder::build`, then `Hyperbee::traverse` (src/hb.rs:133-138), then one
`poll_next` per element of the schedule until the stream ends. -/
def traverseSession (μ : Machine) (b : TraverseConfigBuilder) (sched : List Bool) :
    Prog (List (Except Err KeyValueData) × Bool) :=
  match b.build with
  | .error e => Prog.throw e
  | .ok conf => do
    let fs ← μ.traverse conf
    let (xs, fin) ← μ.drive Pure.pure sched fs
    Pure.pure (xs, fin.isNone)

/-- One call through a handle: the methods of `Hyperbee`, src/hb.rs:45-187. -/
def exec (μ : Machine) : Cmd → Prog Reply
  | .version => Prog.replyOf .version Prog.version
  | .get k => Prog.replyOf .got (μ.get k)
  | .put k v => Prog.replyOf (fun r => .put r.1 r.2) (μ.put k v)
  | .putCas k v cas => Prog.replyOf (fun r => .putCas r.1 r.2) (μ.putCompareAndSwap k v cas)
  | .del k => Prog.replyOf .del (μ.del k)
  | .delCas k cas => Prog.replyOf .delCas (μ.delCompareAndSwap k cas)
  | .createHeader m => Prog.replyOf .created (Prog.createHeader m)
  | .traverse b sched => Prog.replyOf (fun r => .items r.1 r.2) (μ.traverseSession b sched)
  | .reopen => .pure .opened

/-- A call polled to its end with nothing in between.  (`reopen` is no call; see `exec` in
`Model/Session`.) -/
def call (μ : Machine) (c : Cmd) (s : St) : Reply × St :=
  match c with
  | .reopen => Hyperbee.exec .reopen s
  | c =>
    match (μ.exec c).run s with
    | (.ok r, s) => (r, s)
    | (.error e, s) => (.error e, s)

/-- One call after the other. -/
def runs (μ : Machine) : List Cmd → St → List Reply × St
  | [], s => ([], s)
  | c :: cs, s => ((μ.call c s).1 :: (runs μ cs (μ.call c s).2).1, (runs μ cs (μ.call c s).2).2)

end Machine

end Hyperbee
