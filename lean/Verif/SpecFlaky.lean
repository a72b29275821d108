import Verif.Model.Flaky
import Verif.SpecTree
/-!
# What failing reads may do
-/

namespace Hyperbee

/-- The errors of a failed read: the core's own, or that it does not have the block. -/
inductive ReadErr : Err → Prop where
  | io : ReadErr .core
  | missing (q : Nat) : ReadErr (.noBlockAtSeq q)

/-- The items account for the entries `all` apart from `rest`, which are still to come: each entry was
yielded in its place, or is among those, one after another, that an error stands for. -/
inductive Account : List (Except Err KeyValueData) → (all rest : List KeyValueData) → Prop where
  | rest (l : List KeyValueData) : Account [] l l
  | ok {kv : KeyValueData} {xs : List (Except Err KeyValueData)} {all rest : List KeyValueData} :
      Account xs all rest → Account (.ok kv :: xs) (kv :: all) rest
  | lost {e : Err} {lost : List KeyValueData} {xs : List (Except Err KeyValueData)} {all rest : List KeyValueData} :
      Account xs all rest → Account (.error e :: xs) (lost ++ all) rest

/-- The call returned the error of a failed read. -/
def Reply.readError : Reply → Bool
  | .error .core => true
  | .error (.noBlockAtSeq _) => true
  | _ => false

/-- What the items of a traversal may be that are errors: a key, a child, or the place to begin in a
node could not be read. -/
inductive GapErr : Err → Prop where
  | key {e : Err} : ReadErr e → GapErr e
  | child {e : Err} : ReadErr e → GapErr (.getChildInTraverse e)
  | start {e : Err} : ReadErr e → GapErr (.buildIteratorInTraverse e)

/-- The last item is that the place to begin in a node could not be read. -/
def EndsAtStart (xs : List (Except Err KeyValueData)) : Prop :=
  ∃ e, ReadErr e ∧ xs.getLast? = some (.error (.buildIteratorInTraverse e))

/-- The key is in a leaf that can spare it: a leaf of five keys or more, or one that is the whole tree. -/
def STree.CanSpare (t : STree) (k : Bytes) : Prop :=
  ∃ l ∈ t.subtrees, l.kids = [] ∧ k ∈ l.keys.map (·.2) ∧ (5 ≤ l.keys.length ∨ l = t)

/-- The call is the deletion of a key from a leaf that can spare it. -/
def Cmd.Sparing (core : List Bytes) (c : Cmd) : Prop :=
  ∃ t k, StoresRoot core t ∧ t.CanSpare k ∧ (c = .del k ∨ ∃ cas, c = .delCas k cas)

end Hyperbee
