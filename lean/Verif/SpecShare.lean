import Verif.SpecTree
/-!
# The nodes of a version

Read off the decoded blocks.  Version `n` of a database is the core up to its first `n` blocks; its
tree has its top in block `n - 1`.
-/

namespace Hyperbee

/-- Node `j` of block `p` is node `i` of block `q`, or is below it. -/
inductive Below (core : List Bytes) (p j : Nat) : Nat → Nat → Prop where
  | here {m : NodeSchema} {ls : List Level} (block : wireBlock core p = some (m, ls)) (level : j < ls.length) :
      Below core p j p j
  | child {q i : Nat} {m : NodeSchema} {ls : List Level} {l : Level} {refs : List (Nat × Nat)} {r : Nat × Nat}
      (block : wireBlock core q = some (m, ls)) (level : ls[i]? = some l)
      (children : l.children = refs.flatMap fun (r : Nat × Nat) => [r.1, r.2]) (mem : r ∈ refs)
      (below : Below core p j r.1 r.2) : Below core p j q i

/-- Node `j` of block `p` belongs to the tree of version `n`. -/
def InVersion (core : List Bytes) (n p j : Nat) : Prop := 2 ≤ n ∧ n ≤ core.length ∧ Below core p j (n - 1) 0

/-- The `k`th child of node `i` of block `q` is node `r.2` of block `r.1`. -/
def ChildAt (core : List Bytes) (q i k : Nat) (r : Nat × Nat) : Prop :=
  ∃ (m : NodeSchema) (ls : List Level) (l : Level) (refs : List (Nat × Nat)), wireBlock core q = some (m, ls) ∧ ls[i]? = some l ∧
    l.children = refs.flatMap (fun (r : Nat × Nat) => [r.1, r.2]) ∧ refs[k]? = some r

end Hyperbee
