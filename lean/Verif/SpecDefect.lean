import Verif.SpecTree
import Verif.Model.State
/-!
# What can be wrong with a core

The defects of a core that no correct writer produces, said about the decoded blocks, and the
failure of a reader each may explain.
-/

namespace Hyperbee

/-- Node `x.2` of block `x.1` lists node `y.2` of block `y.1` as a child. -/
def RefersTo (core : List Bytes) (x y : Nat × Nat) : Prop :=
  ∃ m ls l j, wireBlock core x.1 = some (m, ls) ∧ ls[x.2]? = some l ∧
    l.children[2 * j]? = some y.1 ∧ l.children[2 * j + 1]? = some y.2

/-- Some node of a block has an odd number of children numbers, which come in pairs. -/
def OddChildren (core : List Bytes) : Prop :=
  ∃ q m ls l, wireBlock core q = some (m, ls) ∧ l ∈ ls ∧ l.children.length % 2 = 1

/-- The newest block carries no node at all, or some child is a node its block does not have. -/
def NoSuchNode (core : List Bytes) : Prop :=
  (∃ m, wireBlock core (core.length - 1) = some (m, [])) ∨
  ∃ x y m ls, RefersTo core x y ∧ wireBlock core y.1 = some (m, ls) ∧ ls.length ≤ y.2

/-- Some node has children, but not one more than it has keys. -/
def TooFewChildren (core : List Bytes) : Prop :=
  ∃ q m ls l, wireBlock core q = some (m, ls) ∧ l ∈ ls ∧ l.children ≠ [] ∧
    l.children.length < 2 * (l.keys.length + 1)

/-- Some node is its own descendant. -/
def CyclicRefs (core : List Bytes) : Prop := ∃ x, Relation.TransGen (RefersTo core) x x

/-- Some node lists a child in the block that is written next. -/
def NamesNext (core : List Bytes) : Prop := ∃ x y, RefersTo core x y ∧ y.1 = core.length

/-- The defect of the core that explains a failed read.  Errors are reported by the code; the
other failures take down the calling task. -/
inductive Blame (core : List Bytes) : Err → Prop where
  /-- An error: a block is not a protobuf message of the right kind. -/
  | decode : Blame core .decode
  /-- An error: a block is not there. -/
  | missing (q : Nat) : Blame core (.noBlockAtSeq q)
  | odd (h : OddChildren core) : Blame core (.panic "blocks.rs:188 level.children[i + 1]")
  | node (h : NoSuchNode core) :
      Blame core (.panic "blocks.rs:224 offset *should* always point to a real node")
  | few (h : TooFewChildren core) : Blame core (.panic "lib.rs:137 children[index]")
  | cycle (h : CyclicRefs core) : Blame core .diverge

end Hyperbee
