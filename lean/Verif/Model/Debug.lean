import Verif.Model.Session
/-!
# The `debug` feature: the height of the tree, and printing it
-/

namespace Hyperbee

/-- The loop of `Node::height`, src/lib.rs:207-216, with a bound on its rounds: `curChild` is the
child reached and `out` the levels counted so far. -/
def heightLoop : Nat → Nat → Addr → M Nat
  | 0, _, _ => throw .diverge
  | fuel + 1, out, curChild => do
    let out := out + 1
    let n ← readNode curChild
    if n.children.length = 0 then pure out
    else do
      let nextChild ← getChild curChild 0
      heightLoop fuel out nextChild

/-- `Node::height`, src/lib.rs:203-218. -/
def nodeHeight (a : Addr) : M Nat := do
  let leaf ← isLeaf a
  if leaf then pure 1
  else do
    let curChild ← getChild a 0
    let fuel ← descentFuel
    heightLoop fuel 1 curChild

/-- `Tree::height`, src/tree.rs:74-85; `Hyperbee::height`, src/hb.rs:60-64. -/
def height : M Nat := do
  match ← getRoot false with
  | none => pure 0
  | some root => nodeHeight root

/-- The bytes `a` to `b`. -/
def byteIn (a b x : UInt8) : Bool := a ≤ x && x ≤ b

/-- Whether `String::from_utf8` succeeds (Rust core's `run_utf8_validation`, the table of well-formed
UTF-8 byte sequences of the Unicode standard).  Used by src/traverse.rs:464. -/
def utf8Valid : Bytes → Bool
  | [] => true
  | b0 :: rest =>
    if byteIn 0x00 0x7F b0 then utf8Valid rest
    else
      match rest with
      | [] => false
      | b1 :: rest =>
        if byteIn 0xC2 0xDF b0 then byteIn 0x80 0xBF b1 && utf8Valid rest
        else
          match rest with
          | [] => false
          | b2 :: rest =>
            if byteIn 0xE0 0xEF b0 then
              byteIn (if b0 = 0xE0 then 0xA0 else 0x80) (if b0 = 0xED then 0x9F else 0xBF) b1 &&
                byteIn 0x80 0xBF b2 && utf8Valid rest
            else
              match rest with
              | [] => false
              | b3 :: rest =>
                byteIn 0xF0 0xF4 b0 &&
                  byteIn (if b0 = 0xF0 then 0x90 else 0x80) (if b0 = 0xF4 then 0x8F else 0xBF) b1 &&
                  byteIn 0x80 0xBF b2 && byteIn 0x80 0xBF b3 && utf8Valid rest

/-- The loop of `traverse::print`, src/traverse.rs:460-467.  The stream is polled once per element of
the schedule, as in `drive`; `none` says the schedule was used up first.  Strings are their bytes.
`starting_height - h` is checked arithmetic in a debug build; in a release build `repeat` panics on
the wrapped result. -/
def printLoop (startingHeight : Nat) : List Bool → List Frame → Bytes → M (Option Bytes)
  | [], _, _ => pure none
  | r :: rs, fs, out => do
    let (p, fs') ← poll r fs
    match p with
    | .ready none _ => pure (some out)
    | .pending _ _ => printLoop startingHeight rs fs' out
    | .ready (some (keyData, node)) _ => do
      let h ← nodeHeight node
      if startingHeight < h then throw (.panic "traverse.rs:462 subtraction overflow")
      else
        let out := out ++ List.replicate (startingHeight - h) 9
        match keyData with
        | .error e => throw e
        | .ok kv =>
          if utf8Valid kv.key then printLoop startingHeight rs fs' (out ++ kv.key ++ [10])
          else throw .keyFromUtf8

/-- `traverse::print`, src/traverse.rs:455-469. -/
def printNode (sched : List Bool) (node : Addr) : M (Option Bytes) := do
  let startingHeight ← nodeHeight node
  printLoop startingHeight sched [Frame.new node .default] []

/-- `Tree::print`, src/tree.rs:139-146; `Hyperbee::print`, src/hb.rs:66-70. -/
def print (sched : List Bool) : M (Option Bytes) := do
  match ← getRoot false with
  | none => throw .noRoot
  | some root => printNode sched root

end Hyperbee
