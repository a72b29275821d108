import Verif.SpecTree
/-!
# Which blocks of a core are in use

Read off the decoded blocks, following references from the newest block.
-/

namespace Hyperbee

/-- Node `i` of block `q`, or something below it, is stored in block `p` or has its key there. -/
inductive Uses (core : List Bytes) (p : Nat) : Nat → Nat → Prop where
  | here {i : Nat} {m : NodeSchema} {ls : List Level}
      (block : wireBlock core p = some (m, ls)) (level : i < ls.length) : Uses core p p i
  | key {q i : Nat} {m : NodeSchema} {ls : List Level} {l : Level}
      (block : wireBlock core q = some (m, ls)) (level : ls[i]? = some l) (mem : p ∈ l.keys) : Uses core p q i
  | child {q i : Nat} {m : NodeSchema} {ls : List Level} {l : Level} {refs : List (Nat × Nat)} {r : Nat × Nat}
      (block : wireBlock core q = some (m, ls)) (level : ls[i]? = some l)
      (children : l.children = refs.flatMap fun (r : Nat × Nat) => [r.1, r.2]) (mem : r ∈ refs)
      (below : Uses core p r.1 r.2) : Uses core p q i

/-- Block `p` is in use: the tree whose top is node 0 of the newest block has a node or a key there.
(A core of fewer than two blocks holds no tree.) -/
def Needed (core : List Bytes) (p : Nat) : Prop := 2 ≤ core.length ∧ Uses core p (core.length - 1) 0

end Hyperbee
