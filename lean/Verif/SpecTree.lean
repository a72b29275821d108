import Verif.Model.Codec
/-!
# What a core says

The tree stored in a list of blocks, read off the decoded blocks, and the vocabulary of B-trees.
Nothing here refers to handles, caches or the operations of the library.
-/

namespace Hyperbee

/-- The decoded content of block `q`: key, value and the nodes ("levels") it carries. -/
def wireBlock (core : List Bytes) (q : Nat) : Option (NodeSchema × List Level) :=
  match core[q]? with
  | none => none
  | some b =>
    match decodeNode b with
    | none => none
    | some m =>
      match decodeYolo m.index with
      | none => none
      | some ls => some (m, ls)

/-- A tree of keys.  Each key comes with the number of the block that stores it. -/
inductive STree where
  | node (keys : List (Nat × Bytes)) (kids : List STree)

namespace STree

def keys : STree → List (Nat × Bytes)
  | node ks _ => ks

def kids : STree → List STree
  | node _ ts => ts

/-- The tree itself and everything below it. -/
def subtrees : STree → List STree
  | node ks ts => node ks ts :: below ts
where
  below : List STree → List STree
    | [] => []
    | t :: ts => t.subtrees ++ below ts

/-- The trees strictly below the top. -/
def proper : STree → List STree
  | node _ ts => subtrees.below ts

/-- The depths of the leaves, the top having depth 1. -/
def leafDepths : STree → List Nat
  | node _ [] => [1]
  | node _ (t :: ts) => (below (t :: ts)).map (· + 1)
where
  below : List STree → List Nat
    | [] => []
    | t :: ts => t.leafDepths ++ below ts

/-- The keys in the order of an in-order walk: child, key, child, key, ..., child. -/
def inorder : STree → List (Nat × Bytes)
  | node ks ts => weave ks ts
where
  weave : List (Nat × Bytes) → List STree → List (Nat × Bytes)
    | ks, [] => ks
    | [], t :: ts => t.inorder ++ weave [] ts
    | k :: ks, t :: ts => t.inorder ++ k :: weave ks ts

/-- The keys in the same order, each with the depth of its node, that of the top being `d`. -/
def outline : STree → Nat → List (Nat × Bytes)
  | node ks ts, d => weave d ks ts
where
  weave (d : Nat) : List (Nat × Bytes) → List STree → List (Nat × Bytes)
    | ks, [] => ks.map fun k => (d, k.2)
    | [], t :: ts => t.outline (d + 1) ++ weave d [] ts
    | k :: ks, t :: ts => t.outline (d + 1) ++ (d, k.2) :: weave d ks ts

/-- The same tree without the block numbers. -/
def bare : STree → STree
  | node ks ts => node (ks.map fun k => (0, k.2)) (ts.map bare)

end STree

/-- Node `i` of block `q` is the top of the tree `t`. -/
inductive Stores (core : List Bytes) : Nat → Nat → STree → Prop where
  | mk {q i : Nat} {m : NodeSchema} {ls : List Level} {l : Level} {ks : List (Nat × Bytes)} {refs : List (Nat × Nat)}
      {kids : List STree}
      (block : wireBlock core q = some (m, ls))
      (level : ls[i]? = some l)
      (keys : l.keys = ks.map (·.1))
      (bytes : ∀ k ∈ ks, ∃ m' ls', wireBlock core k.1 = some (m', ls') ∧ m'.key = k.2)
      (children : l.children = refs.flatMap fun (r : Nat × Nat) => [r.1, r.2])
      (count : kids.length = refs.length)
      (below : ∀ (j : Nat) (r : Nat × Nat) (t : STree), refs[j]? = some r → kids[j]? = some t → Stores core r.1 r.2 t) :
      Stores core q i (.node ks kids)

/-- `t` is the tree of the whole database: the top is node 0 of the newest block. -/
def StoresRoot (core : List Bytes) (t : STree) : Prop := Stores core (core.length - 1) 0 t

/-- A B-tree of order 8: strictly increasing keys, all leaves equally deep, one more child than keys,
at most 8 keys per node, at least 4 below the top, and at least 1 in a top that has children. -/
structure IsBTree (t : STree) : Prop where
  sorted : t.inorder.Pairwise fun a b => a.2 < b.2
  level : ∃ h, ∀ d ∈ t.leafDepths, d = h
  children : ∀ u ∈ t.subtrees, u.kids = [] ∨ u.kids.length = u.keys.length + 1
  most : ∀ u ∈ t.subtrees, u.keys.length ≤ 8
  least : ∀ u ∈ t.proper, 4 ≤ u.keys.length
  top : t.kids ≠ [] → 1 ≤ t.keys.length

/-- A depth-first walk over the nodes of block `q`, whose levels are `ls`, starting at node `i` and
following only references into the same block, visits these nodes in this order. -/
inductive Visits (ls : List Level) (q : Nat) : Nat → List Nat → Prop where
  | mk {i : Nat} {l : Level} {refs : List (Nat × Nat)} {walks : List (List Nat)}
      (level : ls[i]? = some l)
      (children : l.children = refs.flatMap fun r => [r.1, r.2])
      (count : walks.length = refs.length)
      (here : ∀ (j : Nat) (r : Nat × Nat) (w : List Nat), refs[j]? = some r → walks[j]? = some w → r.1 = q →
        Visits ls q r.2 w)
      (elsewhere : ∀ (j : Nat) (r : Nat × Nat) (w : List Nat), refs[j]? = some r → walks[j]? = some w → r.1 ≠ q →
        w = []) :
      Visits ls q i (i :: walks.flatten)

/-- What block `q` refers to. -/
structure SoundBlock (core : List Bytes) (q : Nat) (ls : List Level) : Prop where
  /-- Keys are written in this block or an earlier one, and never in the header. -/
  keys : ∀ l ∈ ls, ∀ p ∈ l.keys, 1 ≤ p ∧ p ≤ q ∧ (wireBlock core p).isSome
  /-- Children come in pairs; each is a node of an earlier block or a later node of this one. -/
  children : ∀ (i : Nat) (l : Level), ls[i]? = some l → ∃ refs : List (Nat × Nat), l.children = (refs.flatMap fun r => [r.1, r.2]) ∧
    ∀ r ∈ refs, (r.1 < q ∨ (r.1 = q ∧ i < r.2)) ∧ ∃ m' ls', wireBlock core r.1 = some (m', ls') ∧ r.2 < ls'.length
  /-- A node has no children or one more than it has keys. -/
  count : ∀ l ∈ ls, l.children = [] ∨ l.children.length = 2 * (l.keys.length + 1)
  /-- The depth-first walk from node 0 meets every node of the block, in the order they are stored. -/
  order : Visits ls q 0 (List.range ls.length)
  /-- Following references from any node yields a finite tree. -/
  finite : ∀ i < ls.length, ∃ t, Stores core q i t

end Hyperbee
