import Verif.Model.Changes
/-!
# `Tree`: header, root and lookup
-/

namespace Hyperbee

/-- `PROTOCOL`, src/lib.rs:50: the bytes of `"hyperbee"`. -/
def PROTOCOL : Bytes := [104, 121, 112, 101, 114, 98, 101, 101]

/-- `MAX_KEYS`, src/lib.rs:52. -/
def MAX_KEYS : Nat := 8

/-- `min_keys`, src/lib.rs:54-56. -/
def minKeys (maxKeys : Nat) : Nat := maxKeys >>> 1

/-- `Tree::create_header`, src/tree.rs:119-135. -/
def createHeader (metadata : Option Metadata) : M Nat := do
  let len ← version
  if len ≠ 0 then throw .headerAlreadyExists
  else coreAppend (encodeHeader ⟨PROTOCOL, metadata⟩)

/-- `match e { HeaderAlreadyExists => Ok(false), .. }`, src/tree.rs:108-114. -/
def ensureHeader : M Bool := fun s =>
  match createHeader none s with
  | (.ok _, s') => (.ok true, s')
  | (.error .headerAlreadyExists, s') => (.ok false, s')
  | (.error e, s') => (.error e, s')

/-- `Tree::get_root`, src/tree.rs:53-72. -/
def getRoot (ensure : Bool) : M (Option Addr) := do
  let v ← version
  if v ≤ 1 then
    if v = 0 ∧ ensure = true then do
      let _ ← ensureHeader
      pure none
    else pure none
  else do
    let block ← blocksGet (v - 1)
    let root ← getTreeNode block 0
    pure (some root)

/-- `Tree::get`, src/tree.rs:90-104; `Hyperbee::get`, src/hb.rs:75-77. -/
def get (key : Bytes) : M (Option (Nat × Option Bytes)) := do
  match ← getRoot false with
  | none => pure none
  | some node => do
    let (matched, path) ← nearestNode node (.finite key)
    if matched.isSome then do
      let (node, keyIndex) ← orPanic "tree.rs:99 path.last()" path.head?
      let kv ← getKeyValue node keyIndex
      pure (some (kv.seq, kv.value))
    else pure none

end Hyperbee
