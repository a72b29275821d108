import Verif.Model.Session
/-!
# What refers to what

`Shared<T>` is `Arc<RwLock<T>>` (src/lib.rs:45), and there is no `Weak` in the library.
-/

namespace Hyperbee

/-- The shared values behind a handle. -/
inductive Part where
  /-- the `Tree`, to which `Hyperbee` (src/hb.rs:26) and `Prefixed` (src/prefixed.rs:45) refer -/
  | tree
  /-- its `Blocks` -/
  | blocks
  /-- the hypercore, with its storage -/
  | core
  /-- the `BlockEntry` of a block in the cache -/
  | entry (q : Nat)
  /-- a `Node` -/
  | node (a : Addr)

/-- The first refers to the second, by an `Arc` in one of its fields (or, for the core, owns it). -/
inductive Refers (s : St) : Part → Part → Prop where
  /-- `Tree::blocks`, src/tree.rs:27 -/
  | tree : Refers s .tree .blocks
  /-- `Blocks::core`, src/blocks.rs:28 -/
  | core : Refers s .blocks .core
  /-- `Blocks::cache`, src/blocks.rs:26 -/
  | cache {q : Nat} {e : BlockEntry} : s.cache q = some e → Refers s .blocks (.entry q)
  /-- `BlockEntry::nodes`, src/blocks.rs:199 -/
  | entry {q : Nat} {e : BlockEntry} {a : Addr} : s.cache q = some e → a ∈ e.nodes → Refers s (.entry q) (.node a)
  /-- `Node::blocks` and `Children::blocks`, src/lib.rs:181, src/lib.rs:100 -/
  | node (a : Addr) : Refers s (.node a) .blocks

/-- What is freed when the program has dropped all it had: handles, sub-databases, streams and calls.
A shared value is freed when everything that refers to it has been.  (Replication is left out: its
tasks have references to the core of their own.) -/
inductive Freed (s : St) : Part → Prop where
  | free {x : Part} : (∀ y, Refers s y x → Freed s y) → Freed s x

/-- Calls that search the tree, if there is one. -/
def Cmd.searches : Cmd → Bool
  | .version => false
  | .get _ => true
  | .put _ _ => true
  | .putCas _ _ _ => true
  | .del _ => true
  | .delCas _ _ => true
  | .createHeader _ => false
  | .traverse b _ => match b.build with | .ok _ => true | .error _ => false
  | .reopen => false

end Hyperbee
