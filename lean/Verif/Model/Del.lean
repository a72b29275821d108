import Verif.Model.Put
/-!
# Deletion
-/

namespace Hyperbee

/-- `enum Side`, src/del.rs:14-19. -/
inductive Side where
  | left
  | right
deriving DecidableEq, Repr

/-- `Side::replace_removed_internal_key_with_a_key_from_leaf`, src/del.rs:34-70.  Returns the
extended path. -/
def replaceRemovedInternalKey (path : NodePath) (node : Addr) (keyIndex : Nat) : M NodePath := do
  let leftChildIndex := keyIndex
  let rightChildIndex := leftChildIndex + 1
  let leftChild ← getChild node leftChildIndex
  let (_, leftPath) ← nearestNode leftChild (.infinite .positive)
  let (leftLeaf, _) ← orPanic "del.rs:44 left_path.last()" leftPath.head?
  let leftNode ← readNode leftLeaf
  let numLeftKeys := leftNode.keys.length
  let rightChild ← getChild node rightChildIndex
  let (_, rightPath) ← nearestNode rightChild (.infinite .negative)
  let (rightLeaf, _) ← orPanic "del.rs:48 right_path.last()" rightPath.head?
  let rightNode ← readNode rightLeaf
  let numRightKeys := rightNode.keys.length
  let (childIndex, replacementKey, pathToBottom) ←
    if numLeftKeys < numRightKeys then do
      let n ← readNode rightLeaf
      let (donor, ks) ← orPanic "del.rs:51 keys.remove(0)" (vecRemove n.keys 0)
      writeNode rightLeaf { n with keys := ks }
      pure (rightChildIndex, donor, rightPath)
    else do
      let n ← readNode leftLeaf
      let (donor, ks) ← orPanic "del.rs:62 keys.pop()" (vecPop n.keys)
      writeNode leftLeaf { n with keys := ks }
      pure (leftChildIndex, donor, leftPath)
  let n ← readNode node
  let ks ← orPanic "del.rs:65 keys.insert" (vecInsert n.keys keyIndex replacementKey)
  writeNode node { n with keys := ks }
  pure (pathToBottom ++ (node, childIndex) :: path)

namespace Side

/-- `Side::get_donor_index`, src/del.rs:75-86. -/
def getDonorIndex (side : Side) (father : Addr) (deficientIndex : Nat) : M (Option Nat) :=
  match side with
  | left => pure (if deficientIndex = 0 then none else some (deficientIndex - 1))
  | right => do
    let n ← readNode father
    pure (if deficientIndex + 1 ≥ n.children.length then none else some (deficientIndex + 1))

/-- `Side::get_key_index`, src/del.rs:89-94.  (`deficient_index - 1` is only evaluated when
`get_donor_index` found a left sibling, so it does not underflow.) -/
def getKeyIndex (side : Side) (deficientIndex : Nat) : Nat :=
  match side with
  | right => deficientIndex
  | left => deficientIndex - 1

/-- `Side::get_donor_key`, src/del.rs:96-106. -/
def getDonorKey (side : Side) (donor : Addr) : M Nat := do
  let n ← readNode donor
  match side with
  | right => do
    let (k, ks) ← orPanic "del.rs:98 keys.remove(0)" (vecRemove n.keys 0)
    writeNode donor { n with keys := ks }
    pure k
  | left => do
    let (k, ks) ← orPanic "del.rs:104 keys should not be empty" (vecPop n.keys)
    writeNode donor { n with keys := ks }
    pure k

/-- `Side::get_donor_child`, src/del.rs:108-116. -/
def getDonorChild (side : Side) (donor : Addr) : M (Option Child) := do
  let leaf ← isLeaf donor
  if leaf then pure none
  else do
    let n ← readNode donor
    match side with
    | right => do
      let (c, cs) ← orPanic "del.rs:113 children.remove(0)" (vecRemove n.children 0)
      writeNode donor { n with children := cs }
      pure (some c)
    | left => do
      let (c, cs) ← orPanic "del.rs:114 node is not a leaf" (vecPop n.children)
      writeNode donor { n with children := cs }
      pure (some c)

/-- `Side::swap_donor_key_in_father`, src/del.rs:118-133.  (`splice(i..=i, [key])` panics when `i`
is out of range, and returns the old element otherwise.) -/
def swapDonorKeyInFather (side : Side) (father : Addr) (deficientIndex key : Nat) : M Nat := do
  let keyIndex := side.getKeyIndex deficientIndex
  let n ← readNode father
  let old ← orPanic "del.rs:129 keys.splice" n.keys[keyIndex]?
  let ks ← orPanic "del.rs:129 keys.splice" (vecSplice n.keys keyIndex (keyIndex + 1) [key])
  writeNode father { n with keys := ks }
  pure old

/-- `Side::insert_donations_into_deficient_child`, src/del.rs:135-155. -/
def insertDonations (side : Side) (deficientChild : Addr) (key : Nat) (child : Option Child) :
    M Unit := do
  let n ← readNode deficientChild
  match side with
  | right => writeNode deficientChild ⟨n.keys ++ [key], n.children ++ child.toList⟩
  | left => writeNode deficientChild ⟨key :: n.keys, child.toList ++ n.children⟩

/-- `Side::can_rotate`, src/del.rs:157-173. -/
def canRotate (side : Side) (father : Addr) (deficientIndex order : Nat) :
    M (Option (Nat × Addr)) := do
  match ← side.getDonorIndex father deficientIndex with
  | none => pure none
  | some donorIndex => do
    let donorChild ← getChild father donorIndex
    let n ← readNode donorChild
    if minKeys order < n.keys.length then pure (some (donorIndex, donorChild)) else pure none

/-- `Side::rotate`, src/del.rs:176-205. -/
def rotate (side : Side) (father : Addr) (deficientIndex : Nat) (deficientChild : Addr)
    (donorIndex : Nat) (donor : Addr) (ch : Changes) : M Changes := do
  let donatedKey ← side.getDonorKey donor
  let donatedChild ← side.getDonorChild donor
  let fromFather ← side.swapDonorKeyInFather father deficientIndex donatedKey
  side.insertDonations deficientChild fromFather donatedChild
  let (ch, c) := ch.addNode donor
  setChild father donorIndex c
  let (ch, c) := ch.addNode deficientChild
  setChild father deficientIndex c
  pure ch

/-- `Side::maybe_rotate`, src/del.rs:207-232; `none` means no rotation was possible. -/
def maybeRotate (side : Side) (father : Addr) (deficientIndex : Nat) (deficientChild : Addr)
    (order : Nat) (ch : Changes) : M (Option Changes) := do
  match ← side.canRotate father deficientIndex order with
  | none => pure none
  | some (donorIndex, donorChild) => do
    let ch ← side.rotate father deficientIndex deficientChild donorIndex donorChild ch
    pure (some ch)

/-- `wchildren!(left).splice(n..n, wchildren!(right).drain(..))`, src/del.rs:275-278.  Both nodes are
locked; were they one node, the second lock would never be granted. -/
def moveChildren (lhs rhs : Addr) (n : Nat) : M Unit :=
  if lhs = rhs then throw .diverge
  else do
    let rn ← readNode rhs
    writeNode rhs { rn with children := [] }
    let ln ← readNode lhs
    let cs ← orPanic "del.rs:278 children.splice" (vecSplice ln.children n n rn.children)
    writeNode lhs { ln with children := cs }

/-- `Side::maybe_merge`, src/del.rs:235-285; `none` means there was no sibling on that side. -/
def maybeMerge (side : Side) (father : Addr) (deficientIndex : Nat) (deficientChild : Addr)
    (ch : Changes) : M (Option Changes) := do
  match ← side.getDonorIndex father deficientIndex with
  | none => pure none
  | some donorIndex => do
    let donorChild ← getChild father donorIndex
    let (lhs, rhs) := match side with
      | .right => (deficientChild, donorChild)
      | .left => (donorChild, deficientChild)
    let keyIndex := side.getKeyIndex deficientIndex
    -- src/del.rs:256
    let n ← readNode father
    let (fromFather, ks) ← orPanic "del.rs:256 keys.remove" (vecRemove n.keys keyIndex)
    writeNode father { n with keys := ks }
    -- src/del.rs:259-263
    let rightChildIndex := match side with
      | .right => deficientIndex + 1
      | .left => deficientIndex
    let n ← readNode father
    let cs ← orPanic "del.rs:263 children.splice"
      (vecSplice n.children rightChildIndex (rightChildIndex + 1) [])
    writeNode father { n with children := cs }
    -- src/del.rs:266-272
    let ln ← readNode lhs
    let nLeftKeys := ln.keys.length
    let rn ← readNode rhs
    writeNode rhs { rn with keys := [] }
    let ln ← readNode lhs
    let ks ← orPanic "del.rs:272 keys.splice"
      (vecSplice ln.keys nLeftKeys nLeftKeys (fromFather :: rn.keys))
    writeNode lhs { ln with keys := ks }
    -- src/del.rs:274-278
    let ln ← readNode lhs
    moveChildren lhs rhs ln.children.length
    -- src/del.rs:281-283
    let (ch, leftRef) := ch.addNode lhs
    let n ← readNode father
    let cs ← orPanic "del.rs:283 children.splice"
      (vecSplice n.children (rightChildIndex - 1) rightChildIndex [leftRef])
    writeNode father { n with children := cs }
    pure (some ch)

end Side

/-- `repair_one`, src/del.rs:292-356.  The father is updated in place. -/
def repairOne (father : Addr) (deficientIndex : Nat) (deficientChild : Addr) (order : Nat)
    (ch : Changes) : M Changes := do
  match ← Side.left.maybeRotate father deficientIndex deficientChild order ch with
  | some ch => pure ch
  | none =>
  match ← Side.right.maybeRotate father deficientIndex deficientChild order ch with
  | some ch => pure ch
  | none =>
  match ← Side.left.maybeMerge father deficientIndex deficientChild ch with
  | some ch => pure ch
  | none =>
  match ← Side.right.maybeMerge father deficientIndex deficientChild ch with
  | some ch => pure ch
  | none => throw (.panic "del.rs:355 this should never happen")

/-- The loop of `repair`, src/del.rs:368-402.  `path` is what is left above `father`.  Returns the
reference to propagate, the rest of the path, and the changes. -/
def repairLoop (order : Nat) :
    NodePath → Addr → Nat → Addr → Changes → M (Child × NodePath × Changes)
  | path, father, deficientIndex, deficientChild, ch => do
    let ch ← repairOne father deficientIndex deficientChild order ch
    let n ← readNode father
    if path.isEmpty = true ∧ n.keys.isEmpty = true ∧ n.children.length = 1 then do
      let c ← orPanic "del.rs:389 children[0]" n.children[0]?
      pure (c, path, ch)
    else
      match path with
      | [] => do
        let (ch, c) := ch.addNode father
        pure (c, [], ch)
      | (father', deficientIndex') :: path' =>
        if n.keys.length ≥ minKeys order then do
          let (ch, c) := ch.addNode father
          pure (c, path, ch)
        else repairLoop order path' father' deficientIndex' father ch

/-- `repair`, src/del.rs:359-405. -/
def repair (path : NodePath) (order : Nat) (ch : Changes) : M (Child × NodePath × Changes) := do
  match path with
  | [] => throw (.panic "del.rs:365 path.len() > 0 should be checked before")
  | (father, deficientIndex) :: path => do
    let deficientChild ← getChild father deficientIndex
    repairLoop order path father deficientIndex deficientChild ch

/-- Everything of `del_compare_and_swap` after the key was found and the swap accepted, up to
`add_changes`: src/del.rs:438-473. -/
def delChanges (key : Bytes) (path : NodePath) : M Changes := do
  let v ← version
  let ch := Changes.new v key none
  match path with
  | [] => throw (.panic "del.rs:442 nearest_node always returns at least one node")
  | (curNode, curIndex) :: path => do
    let n ← readNode curNode
    let (_, ks) ← orPanic "del.rs:445 keys.remove" (vecRemove n.keys curIndex)
    writeNode curNode { n with keys := ks }
    let leaf ← isLeaf curNode
    let path ←
      if leaf then pure ((curNode, curIndex) :: path)
      else replaceRemovedInternalKey path curNode curIndex
    match path with
    | [] => throw (.panic "del.rs:457 if/else above ensures path is not empty")
    | (bottomNode, _) :: path => do
      let bn ← readNode bottomNode
      let (childRef, path, ch) ←
        if path.isEmpty = false ∧ bn.keys.length < minKeys MAX_KEYS then repair path MAX_KEYS ch
        else
          let (ch, c) := ch.addNode bottomNode
          pure (c, path, ch)
      if path.isEmpty = false then propagate ch path childRef else pure ch

/-- `Tree::del_compare_and_swap`, src/del.rs:412-477, up to `add_changes`. -/
def delPrepare (key : Bytes) (cas : KeyValueData → Bool) :
    M (Prepared (Option (Bool × Nat))) := do
  match ← getRoot false with
  | none => pure (.done none)
  | some root => do
    let (matched, path) ← nearestNode root (.finite key)
    match matched with
    | none => pure (.done none)
    | some seq => do
      let (node, index) ← orPanic "del.rs:430 path[len - 1]" path.head?
      let kv ← getKeyValue node index
      if cas kv = false then pure (.done (some (false, seq)))
      else do
        let ch ← delChanges key path
        pure (.commit ch (some (true, seq)))

/-- `Tree::del_compare_and_swap`, src/del.rs:412-477; `Hyperbee::del_compare_and_swap`,
src/hb.rs:119-125. -/
def delCompareAndSwap (key : Bytes) (cas : KeyValueData → Bool) : M (Option (Bool × Nat)) := do
  let p ← delPrepare key cas
  commitPrepared p

/-- `Tree::del`, src/del.rs:479-487; `Hyperbee::del`, src/hb.rs:110-112. -/
def del (key : Bytes) : M (Option Nat) := do
  match ← delCompareAndSwap key (fun _ => true) with
  | none => pure none
  | some (deleted, seq) =>
    if deleted then pure (some seq)
    else throw (.panic "del.rs:486 cas_always_true implies `deleted` always true")

end Hyperbee
