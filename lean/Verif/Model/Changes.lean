import Verif.Model.State
/-!
# Collecting changed nodes and committing them as one block
-/

namespace Hyperbee

/-- `struct Changes`, src/changes.rs:5-10. -/
structure Changes where
  seq : Nat
  key : Bytes
  value : Option Bytes
  nodes : List Addr
deriving DecidableEq, Repr

/-- `Changes::new`, src/changes.rs:13-20. -/
def Changes.new (seq : Nat) (key : Bytes) (value : Option Bytes) : Changes := ⟨seq, key, value, []⟩

/-- `Changes::add_node`, src/changes.rs:24-32: the updated changes and the new node's reference. -/
def Changes.addNode (ch : Changes) (a : Addr) : Changes × Child :=
  ({ ch with nodes := ch.nodes ++ [a] }, ⟨ch.seq, ch.nodes.length⟩)

/-- The indices of the children with the given `seq`, lowest first. -/
def indicesWithSeq (seq : Nat) : Nat → List Child → List Nat
  | _, [] => []
  | i, c :: cs => if c.seq = seq then i :: indicesWithSeq seq (i + 1) cs
                  else indicesWithSeq seq (i + 1) cs

/-- `take_children_with_seq`, src/blocks.rs:137-150.  The code reverses the list because it appends
it to a stack `Vec`; the model's stack has its top at the head, so the order is kept. -/
def takeChildrenWithSeq (a : Addr) (seq : Nat) : M (List (Addr × Nat)) := do
  let n ← readNode a
  pure ((indicesWithSeq seq 0 n.children).map fun i => (a, i))

/-- The loop of `reorder_nodes`, src/blocks.rs:162-175, with a bound on its rounds. -/
def reorderLoop (seq : Nat) (nodes : List Addr) :
    Nat → List (Addr × Nat) → List Addr → M (List Addr)
  | _, [], out => pure out
  | 0, _ :: _, _ => throw .diverge
  | fuel + 1, (node, childIndex) :: stack, out => do
    let n ← readNode node
    let c ← orPanic "blocks.rs:166 children[child_index]" n.children[childIndex]?
    let oldOffset := c.offset
    let cs ← orPanic "blocks.rs:168 children[child_index]"
      (vecSet n.children childIndex ⟨c.seq, out.length⟩)
    writeNode node { n with children := cs }
    let childsNode ← orPanic "blocks.rs:170 nodes[old_offset]" nodes[oldOffset]?
    let more ← takeChildrenWithSeq childsNode seq
    reorderLoop seq nodes fuel (more ++ stack) (out ++ [childsNode])

/-- `reorder_nodes`, src/blocks.rs:155-177.  The model's bound on the loop is the number of nodes. -/
def reorderNodes (seq : Nat) (nodes : List Addr) : M (List Addr) := do
  let root ← orPanic "blocks.rs:156 nodes[len - 1]" nodes.getLast?
  let stack ← takeChildrenWithSeq root seq
  reorderLoop seq nodes nodes.length stack [root]

/-- Read a list of nodes (src/blocks.rs:111-114). -/
def readNodes : List Addr → M (List Node)
  | [] => pure []
  | a :: as => do
    let n ← readNode a
    let ns ← readNodes as
    pure (n :: ns)

/-- The bytes of a block: src/blocks.rs:116-129. -/
def encodeBlock (key : Bytes) (value : Option Bytes) (nodes : List Node) : Bytes :=
  encodeNode ⟨encodeYolo (nodes.map toLevel), key, value⟩

/-- `Blocks::add_changes`, src/blocks.rs:100-131. -/
def addChanges (ch : Changes) : M Nat := do
  let reordered ← reorderNodes ch.seq ch.nodes
  let ns ← readNodes reordered
  coreAppend (encodeBlock ch.key ch.value ns)

end Hyperbee
