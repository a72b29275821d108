import Verif.Model.Tree
/-!
# Insertion
-/

namespace Hyperbee

/-- `wchildren!(node)[index] = child` (src/put.rs:27, src/del.rs:201-202). -/
def setChild (a : Addr) (index : Nat) (c : Child) : M Unit := do
  let n ← readNode a
  let cs ← orPanic "children[index] = child" (vecSet n.children index c)
  writeNode a { n with children := cs }

/-- `propagate_changes_up_tree`, src/put.rs:14-30. -/
def propagate (ch : Changes) : NodePath → Child → M Changes
  | [], _ => pure ch
  | (node, index) :: path, curChild => do
    setChild node index curChild
    let (ch, curChild) := ch.addNode node
    propagate ch path curChild

/-- `Node::split`, src/put.rs:36-66: the two halves (freshly allocated) and the middle key.  The
split node itself is left empty. -/
def split (a : Addr) : M (Addr × Nat × Addr) := do
  let n ← readNode a
  let km := n.keys.length >>> 1
  let cm := n.children.length >>> 1
  let left : Node := ⟨n.keys.take km, n.children.take cm⟩
  let (midKey, rest) ← orPanic "put.rs:55 keys.remove(0)" (vecRemove (n.keys.drop km) 0)
  let right : Node := ⟨rest, n.children.drop cm⟩
  writeNode a ⟨[], []⟩
  let l ← alloc left
  let r ← alloc right
  pure (l, midKey, r)

/-- The `loop` of `put_compare_and_swap` and the code after it, src/put.rs:119-184, up to but not
including `add_changes`: the collected changes.  (In the code each exit of the loop calls
`add_changes(changes)` and returns `(matched, Some(seq))`; the model does that once, in
`putCompareAndSwap`.) -/
def putLoop (matched : Bool) : NodePath → Changes → Nat → List Child → M Changes
  | [], ch, curKey, children => do
    -- src/put.rs:176-184: a new root
    let newRoot ← alloc ⟨[curKey], children⟩
    let (ch, _) := ch.addNode newRoot
    pure ch
  | (curNode, curIndex) :: path, ch, curKey, children => do
    let n ← readNode curNode
    let room := n.keys.length < MAX_KEYS
    if matched = true ∨ room then do
      -- src/put.rs:128-151
      let stop := if matched then curIndex + 1 else curIndex
      nodeInsert curNode curKey children curIndex stop
      let (ch, child) := ch.addNode curNode
      if path.isEmpty then pure ch
      else propagate ch path child
    else do
      -- src/put.rs:153-167
      nodeInsert curNode curKey children curIndex curIndex
      let (left, midKey, right) ← split curNode
      let (ch, cl) := ch.addNode left
      let (ch, cr) := ch.addNode right
      putLoop matched path ch midKey [cl, cr]

/-- What `put_compare_and_swap` has decided before it commits. -/
inductive Prepared (α : Type) where
  /-- the swap was refused (or there was nothing to do): return `a` without writing a block -/
  | done (a : α)
  /-- commit these changes, then return `a` -/
  | commit (ch : Changes) (a : α)

/-- `Tree::put_compare_and_swap`, src/put.rs:74-188, up to `add_changes`. -/
def putPrepare (key : Bytes) (value : Option Bytes)
    (cas : Option KeyValueData → KeyValueData → Bool) :
    M (Prepared (Option Nat × Option Nat)) := do
  let maybeRoot ← getRoot true
  let seq ← version
  let changes := Changes.new seq key value
  let newKeyData : KeyValueData := ⟨seq, key, value⟩
  match maybeRoot with
  | none =>
    if cas none newKeyData = false then pure (.done (none, none))
    else do
      let ch ← putLoop false [] changes seq []
      pure (.commit ch (none, some seq))
  | some root => do
    let (matched, path) ← nearestNode root (.finite key)
    let oldKeyData ←
      if matched.isSome then do
        let (node, index) ← orPanic "put.rs:109 path[path.len() - 1]" path.head?
        let kv ← getKeyValue node index
        pure (some kv)
      else pure none
    if cas oldKeyData newKeyData = false then pure (.done (matched, none))
    else do
      let ch ← putLoop matched.isSome path changes seq []
      pure (.commit ch (matched, some seq))

/-- Write the block, then return. -/
def commitPrepared : Prepared α → M α
  | .done a => pure a
  | .commit ch a => do
    let _ ← addChanges ch
    pure a

/-- `Tree::put_compare_and_swap`, src/put.rs:74-188; `Hyperbee::put_compare_and_swap`,
src/hb.rs:95-106. -/
def putCompareAndSwap (key : Bytes) (value : Option Bytes)
    (cas : Option KeyValueData → KeyValueData → Bool) : M (Option Nat × Option Nat) := do
  let p ← putPrepare key value cas
  commitPrepared p

/-- `Tree::put`, src/put.rs:198-210; `Hyperbee::put`, src/hb.rs:83-89. -/
def put (key : Bytes) (value : Option Bytes) : M (Option Nat × Nat) := do
  let (old, new) ← putCompareAndSwap key value (fun _ _ => true)
  let new ← orPanic "put.rs:208 with cas_always_true this should never be none" new
  pure (old, new)

end Hyperbee
