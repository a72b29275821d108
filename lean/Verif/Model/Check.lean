import Verif.Model.Session
/-!
# The check the test suite runs on trees, src/test/mod.rs
-/

namespace Hyperbee

/-- `Result::expect`: an error becomes a panic. -/
def expectOk (site : String) (m : M α) : M α := fun s =>
  match m s with
  | (.ok a, s') => (.ok a, s')
  | (.error (.panic p), s') => (.error (.panic p), s')
  | (.error .diverge, s') => (.error .diverge, s')
  | (.error _, s') => (.error (.panic site), s')

/-- `is_sorted`, src/test/mod.rs:23-30. -/
def checkSorted : List Bytes → M Unit
  | x :: y :: arr => if y ≤ x then throw (.panic "test/mod.rs:27 out of order") else checkSorted (y :: arr)
  | _ => pure ()

/-- `interleave`, src/test/mod.rs:32-45. -/
def checkInterleave : List Bytes → List Bytes → List Bytes
  | x :: a, y :: b => x :: y :: checkInterleave a b
  | [], b => b
  | a, [] => a

/-- The loop over the keys of a node, src/test/mod.rs:67-76. -/
def checkKeys (node : Addr) : List Nat → M (List Bytes)
  | [] => pure []
  | i :: is => do
    let kv ← expectOk "test/mod.rs:73 should always get key in tests" (getKeyValue node i)
    let keys ← checkKeys node is
    pure (kv.key :: keys)

/-- The loop over the children of a node, src/test/mod.rs:80-97; `check` is the recursive call. -/
def checkKids (check : Addr → M Unit) (node : Addr) : List Nat → M (List Bytes)
  | [] => pure []
  | i :: is => do
    let child ← expectOk "test/mod.rs:86 get child always works in tests" (getChild node i)
    let kv ← expectOk "test/mod.rs:93 nodes must always have a key" (getKeyValue child 0)
    check child
    let keys ← checkKids check node is
    pure (kv.key :: keys)

/-- `check_node`, src/test/mod.rs:47-101, with a bound on the depth. -/
def checkNode : Nat → Addr → M Unit
  | 0, _ => throw .diverge
  | fuel + 1, node => do
    let n ← readNode node
    let nKeys := n.keys.length
    let nChildren := n.children.length
    if MAX_KEYS < nKeys then throw (.panic "test/mod.rs:55 too many keys")
    else if nKeys < minKeys MAX_KEYS then throw (.panic "test/mod.rs:59 too few keys")
    else if nChildren ≠ 0 ∧ nChildren ≠ nKeys + 1 then throw (.panic "test/mod.rs:63 number of kids")
    else do
      let keys ← checkKeys node (List.range nKeys)
      checkSorted keys
      let firsts ← checkKids (checkNode fuel) node (List.range nChildren)
      checkSorted firsts
      checkSorted (checkInterleave firsts keys)

/-- The loop over the children of the root, src/test/mod.rs:135-143. -/
def checkRootKids (check : Addr → M Unit) (root : Addr) : List Nat → M Unit
  | [] => pure ()
  | i :: is => do
    let child ← expectOk "test/mod.rs:141 get child always works in tests" (getChild root i)
    check child
    checkRootKids check root is

/-- `check_tree`, src/test/mod.rs:112-146. -/
def checkTree : M Unit := do
  match ← getRoot false with
  | none => throw (.panic "test/mod.rs:116 we would only be checking an existing tree")
  | some root => do
    let n ← readNode root
    let nKeys := n.keys.length
    let nChildren := n.children.length
    if nKeys = 0 ∧ 0 < nChildren then throw (.panic "test/mod.rs:124 root has children but no keys")
    else if MAX_KEYS < nKeys then throw (.panic "test/mod.rs:128 too many keys")
    else if nChildren ≠ 0 ∧ nChildren ≠ nKeys + 1 then throw (.panic "test/mod.rs:132 number of kids")
    else do
      let fuel ← descentFuel
      checkRootKids (checkNode fuel) root (List.range nChildren)

end Hyperbee
