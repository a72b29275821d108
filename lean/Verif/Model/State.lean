import Verif.Model.Codec
/-!
# The machine state, nodes, blocks and the cache

A `Hyperbee`/`Tree` handle is a hypercore (an append-only list of blocks), a cache of decoded
blocks, and the in-memory nodes those decoded blocks own.  Nodes are `Arc<RwLock<Node>>` in the
code and are mutated in place by `put` and `del`; here they live in a heap and are named by address.
-/

namespace Hyperbee

/-- `HyperbeeError` (src/error.rs:17-56), plus `panic` for the code's panics (`expect`, `unwrap`,
slice indexing, `Vec` methods out of range, `todo!`) and `diverge` for a loop that ran past the
model's step bound.  `core` stands for `HypercoreError`/`CoreMethodsError` from a failed append.
`u64ToUsize` arises in `Model/Machine` only: elsewhere `usize` has no end. -/
inductive Err where
  | core
  | decode
  | noBlockAtSeq (seq : Nat)
  | noRoot
  | headerAlreadyExists
  | getChildInTraverse (e : Err)
  | buildIteratorInTraverse (e : Err)
  | traverseConfigBuilder
  | keyFromUtf8
  | u64ToUsize (n : Nat)
  | panic (site : String)
  | diverge
deriving DecidableEq, Repr

/-- `struct Child`, src/lib.rs:86-97. -/
structure Child where
  seq : Nat
  offset : Nat
deriving DecidableEq, Repr

/-- `struct Node`, src/lib.rs:178-182, without the back pointer to the blocks.  A `KeyValue`
(src/lib.rs:61-70) is its `seq`. -/
structure Node where
  keys : List Nat
  children : List Child
deriving DecidableEq, Repr, Inhabited

/-- `struct KeyValueData`, src/lib.rs:75-82. -/
structure KeyValueData where
  seq : Nat
  key : Bytes
  value : Option Bytes
deriving DecidableEq, Repr

/-- The identity of an `Arc<RwLock<Node>>` (`SharedNode`, src/lib.rs:46). -/
abbrev Addr := Nat

/-- `NodePath`, src/lib.rs:47.  The code's `Vec` is root-first and is used as a stack; the model
keeps the top of the stack (the deepest node) at the head of the list. -/
abbrev NodePath := List (Addr × Nat)

/-- `struct BlockEntry`, src/blocks.rs:197-204. -/
structure BlockEntry where
  nodes : List Addr
  key : Bytes
  value : Option Bytes
deriving DecidableEq, Repr

/-- The environment's behaviour: which blocks of the core can be read locally (a sparse replica
lacks some), and whether appending succeeds. -/
structure Io where
  readable : Nat → Bool
  appendOk : Bool

/-- The state behind one `Tree` handle: `Blocks { cache, core }` (src/blocks.rs:23-29) and the heap
holding the nodes.  `core` is the hypercore's list of blocks, `version()` being its length. -/
structure St where
  core : List Bytes
  io : Io
  cache : Nat → Option BlockEntry
  heap : List Node

/-- An environment without faults. -/
def Io.good : Io := ⟨fun _ => true, true⟩

/-- A handle freshly opened on an existing core: `Tree::from_hypercore`, `from_storage_dir`,
`from_ram` and `from_blocks`, src/tree.rs:161-189 (the cache defaults to empty,
src/blocks.rs:24-26). -/
def St.open (core : List Bytes) : St := ⟨core, Io.good, fun _ => none, []⟩

/-- `Tree::from_ram`, src/tree.rs:170-178: an empty core. -/
def St.init : St := St.open []

/-- A computation of the code: it reads and writes the state and ends with a value or an error.
The state reached when an error is raised is kept, as in the code. -/
def M (α : Type) := St → Except Err α × St

namespace M

def pure (a : α) : M α := fun s => (.ok a, s)

def bind (x : M α) (f : α → M β) : M β := fun s =>
  match x s with
  | (.ok a, s') => f a s'
  | (.error e, s') => (.error e, s')

instance : Monad M where
  pure := M.pure
  bind := M.bind

end M

/-- Return an error. -/
def throw (e : Err) : M α := fun s => (.error e, s)

/-- `expect`/`unwrap`/indexing: panic on `none`. -/
def orPanic (site : String) : Option α → M α
  | some a => pure a
  | none => throw (.panic site)

def getSt : M St := fun s => (.ok s, s)

def modifySt (f : St → St) : M Unit := fun s => (.ok (), f s)

/-! ## `Vec` operations used by the code; `none` is a panic -/

/-- `Vec::splice(i..j, new)`. -/
def vecSplice (l : List α) (i j : Nat) (new : List α) : Option (List α) :=
  if i ≤ j ∧ j ≤ l.length then some (l.take i ++ new ++ l.drop j) else none

/-- `Vec::remove(i)`: the element and what is left. -/
def vecRemove (l : List α) (i : Nat) : Option (α × List α) :=
  match l[i]? with
  | some a => some (a, l.take i ++ l.drop (i + 1))
  | none => none

/-- `Vec::insert(i, x)`. -/
def vecInsert (l : List α) (i : Nat) (x : α) : Option (List α) :=
  if i ≤ l.length then some (l.take i ++ x :: l.drop i) else none

/-- `v[i] = x`. -/
def vecSet (l : List α) (i : Nat) (x : α) : Option (List α) :=
  if i < l.length then some (l.set i x) else none

/-- `Vec::pop`. -/
def vecPop (l : List α) : Option (α × List α) :=
  match l.getLast? with
  | some a => some (a, l.dropLast)
  | none => none

/-! ## The heap -/

/-- `Arc::new(RwLock::new(node))`. -/
def alloc (n : Node) : M Addr := fun s => (.ok s.heap.length, { s with heap := s.heap ++ [n] })

/-- `node.read().await`.  (A dangling address cannot occur; it is reported as a panic.) -/
def readNode (a : Addr) : M Node := fun s =>
  match s.heap[a]? with
  | some n => (.ok n, s)
  | none => (.error (.panic "dangling node"), s)

/-- Store through `node.write().await` / `wchildren!(node)` (src/lib.rs:170-175). -/
def writeNode (a : Addr) (n : Node) : M Unit := fun s =>
  (.ok (), { s with heap := s.heap.set a n })

/-! ## Blocks -/

/-- `self.core.info().await.length`, src/blocks.rs:90-92; `Tree::version`, src/tree.rs:48-50. -/
def version : M Nat := fun s => (.ok s.core.length, s)

/-- `self.core.get(seq)`, src/blocks.rs:81 (hypercore): the block if it is there and local. -/
def coreGet (seq : Nat) : M (Option Bytes) := fun s =>
  (.ok (if s.io.readable seq then s.core[seq]? else none), s)

/-- `Blocks::append`, src/blocks.rs:94-96 (hypercore): add one block at the end, or fail and
change nothing.  Returns the new length (`AppendOutcome.length`). -/
def coreAppend (b : Bytes) : M Nat := fun s =>
  if s.io.appendOk then (.ok (s.core.length + 1), { s with core := s.core ++ [b] })
  else (.error .core, s)

/-- The loop at src/blocks.rs:186-189: pairs of numbers become children; an odd count panics at
`level.children[i + 1]`. -/
def pairUp : List Nat → Option (List Child)
  | [] => some []
  | [_] => none
  | s :: o :: rest =>
    match pairUp rest with
    | none => none
    | some cs => some (⟨s, o⟩ :: cs)

/-- The body of the `map` in `make_node_vec`, src/blocks.rs:184-191. -/
def levelToNode (l : Level) : Option Node :=
  match pairUp l.children with
  | none => none
  | some cs => some ⟨l.keys, cs⟩

/-- Allocate one node per level, in order. -/
def allocLevels : List Level → M (List Addr)
  | [] => pure []
  | l :: ls => do
    let n ← orPanic "blocks.rs:188 level.children[i + 1]" (levelToNode l)
    let a ← alloc n
    let as ← allocLevels ls
    pure (a :: as)

/-- `make_node_vec`, src/blocks.rs:180-193. -/
def makeNodeVec (buf : Bytes) : M (List Addr) :=
  match decodeYolo buf with
  | none => throw .decode
  | some ls => allocLevels ls

/-- `BlockEntry::new`, src/blocks.rs:207-213. -/
def blockEntryNew (entry : NodeSchema) : M BlockEntry := do
  let nodes ← makeNodeVec entry.index
  pure ⟨nodes, entry.key, entry.value⟩

/-- `Blocks::get_from_core`, src/blocks.rs:76-88. -/
def getFromCore (seq : Nat) : M (Option BlockEntry) := do
  match ← coreGet seq with
  | some coreBlock =>
    match decodeNode coreBlock with
    | none => throw .decode
    | some node => do
      let e ← blockEntryNew node
      pure (some e)
  | none => pure none

/-- `Blocks::get_from_cache`, src/blocks.rs:72-74. -/
def getFromCache (seq : Nat) : M (Option BlockEntry) := fun s => (.ok (s.cache seq), s)

/-- `BTreeMap::insert`. -/
def cacheInsert (seq : Nat) (e : BlockEntry) (c : Nat → Option BlockEntry) :
    Nat → Option BlockEntry :=
  fun n => if n = seq then some e else c n

/-- `Blocks::get`, src/blocks.rs:53-71. -/
def blocksGet (seq : Nat) : M BlockEntry := do
  match ← getFromCache seq with
  | some block => pure block
  | none =>
    match ← getFromCore seq with
    | none => throw (.noBlockAtSeq seq)
    | some entry => do
      modifySt fun s => { s with cache := cacheInsert seq entry s.cache }
      pure entry

/-- `BlockEntry::get_tree_node`, src/blocks.rs:217-226. -/
def getTreeNode (e : BlockEntry) (offset : Nat) : M Addr :=
  orPanic "blocks.rs:224 offset *should* always point to a real node" e.nodes[offset]?

/-! ## Nodes -/

/-- `Children::get_child` / `Node::get_child`, src/lib.rs:135-148 and 260-262. -/
def getChild (a : Addr) (index : Nat) : M Addr := do
  let n ← readNode a
  let c ← orPanic "lib.rs:137 children[index]" n.children[index]?
  let block ← blocksGet c.seq
  getTreeNode block c.offset

/-- `Node::is_leaf`, src/lib.rs:193-199. -/
def isLeaf (a : Addr) : M Bool := do
  let n ← readNode a
  pure (n.children.length == 0)

/-- `Node::get_key_value`, src/lib.rs:234-257 (two block reads, as in the code). -/
def getKeyValue (a : Addr) (index : Nat) : M KeyValueData := do
  let n ← readNode a
  let seq ← orPanic "lib.rs:235 keys[index]" n.keys[index]?
  let b1 ← blocksGet seq
  let b2 ← blocksGet seq
  pure ⟨seq, b1.key, b2.value⟩

/-- `Children::insert`, src/lib.rs:113-132: the child at `index` is replaced, unless there is
nothing to insert. -/
def childrenInsert (cs : List Child) (index : Nat) (new : List Child) : Option (List Child) :=
  if new.isEmpty then some cs else vecSplice cs index (index + 1) new

/-- `Node::insert`, src/lib.rs:266-270, with the range `start..stop`. -/
def nodeInsert (a : Addr) (key : Nat) (children : List Child) (start stop : Nat) : M Unit := do
  let n ← readNode a
  let ks ← orPanic "lib.rs:268 keys.splice" (vecSplice n.keys start stop [key])
  let cs ← orPanic "lib.rs:128 children.splice" (childrenInsert n.children start children)
  writeNode a ⟨ks, cs⟩

/-- `Node::to_level`, src/lib.rs:221-231. -/
def toLevel (n : Node) : Level :=
  ⟨n.keys, n.children.flatMap fun c => [c.seq, c.offset]⟩

/-! ## Search -/

/-- The `while low <= high` loop of `get_index_of_key`, src/lib.rs:323-353.  `key == other` and
`key < other` are the two comparisons made per round. -/
def searchLoop (a : Addr) (key : LimitValue) : Nat → Nat → Nat → M (Option Nat × Nat)
  | 0, _, _ => throw .diverge
  | fuel + 1, low, high =>
    if low ≤ high then do
      let mid := low + ((high - low) >>> 1)
      let kv ← getKeyValue a mid
      if key.eqBytes kv.key then pure (some kv.seq, mid)
      else if key.cmp kv.key = .lt then
        if mid = 0 then pure (none, low)
        else searchLoop a key fuel low (mid - 1)
      else searchLoop a key fuel (mid + 1) high
    else pure (none, low)

/-- `get_index_of_key`, src/lib.rs:307-356. -/
def getIndexOfKey (a : Addr) (key : LimitValue) : M (Option Nat × Nat) := do
  let n ← readNode a
  let nKeys := n.keys.length
  if nKeys = 0 then pure (none, nKeys)
  else searchLoop a key (nKeys + 1) 0 (nKeys - 1)

/-- The loop of `nearest_node`, src/lib.rs:379-395, with a bound on its rounds. -/
def nearestLoop (key : LimitValue) : Nat → Addr → NodePath → M (Option Nat × NodePath)
  | 0, _, _ => throw .diverge
  | fuel + 1, cur, path => do
    let (matched, childIndex) ← getIndexOfKey cur key
    let path := (cur, childIndex) :: path
    let leaf ← isLeaf cur
    if matched.isSome || leaf then pure (matched, path)
    else do
      let next ← getChild cur childIndex
      nearestLoop key fuel next path

/-- How many nodes a block carries. -/
def nodeCount (b : Bytes) : Nat :=
  match decodeNode b with
  | none => 0
  | some m =>
    match decodeYolo m.index with
    | none => 0
    | some ls => ls.length

/-- More rounds than there are nodes in all blocks: a node takes at least one byte.  (Block 0 is
normally a header, which carries no node.) -/
def stepBound (core : List Bytes) : Nat :=
  core.length + ((core.take 1).map nodeCount).sum + ((core.drop 1).map List.length).sum + 1

/-- The model's bound on tree descents.  `Verif` proves that no reachable state hits it. -/
def descentFuel : M Nat := fun s => (.ok (stepBound s.core), s)

/-- `nearest_node`, src/lib.rs:372-396. -/
def nearestNode (a : Addr) (key : LimitValue) : M (Option Nat × NodePath) := do
  let fuel ← descentFuel
  nearestLoop key fuel a []

end Hyperbee
