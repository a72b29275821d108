import Verif.Model.Async
import Verif.Model.Debug
/-!
# The `debug` feature as futures

The functions of `Model/Debug`, one step per await, as in `Model/Async`.

Simplification: the guard of the node whose height is asked for, src/tree.rs:83-84 and src/traverse.rs:456 and 461, is kept
while its descendants are read; it is not written down.  The theorems are about `Prog.interleave`, in which locks play no
part.
-/

namespace Hyperbee

namespace Prog

/-- The loop of `Node::height`, src/lib.rs:207-216. -/
def heightLoop : Nat → Nat → Addr → Prog Nat
  | 0, _, _ => throw .diverge
  | fuel + 1, out, curChild => do
    let out := out + 1
    let n ← readNode curChild
    if n.children.length = 0 then Pure.pure out
    else do
      let nextChild ← getChild curChild 0
      heightLoop fuel out nextChild

/-- `Node::height`, src/lib.rs:203-218. -/
def nodeHeight (a : Addr) : Prog Nat := do
  let leaf ← isLeaf a
  if leaf then Pure.pure 1
  else do
    let curChild ← getChild a 0
    let fuel ← descentFuel
    heightLoop fuel 1 curChild

/-- `Tree::height`, src/tree.rs:74-85; `Hyperbee::height`, src/hb.rs:60-64. -/
def height : Prog Nat := do
  match ← getRoot false with
  | none => Pure.pure 0
  | some root => nodeHeight root

/-- The loop of `traverse::print`, src/traverse.rs:460-467; see `Hyperbee.printLoop`. -/
def printLoop (startingHeight : Nat) : List Bool → List Frame → Bytes → Prog (Option Bytes)
  | [], _, _ => Pure.pure none
  | r :: rs, fs, out => do
    let (p, fs') ← poll r fs
    match p with
    | .ready none _ => Pure.pure (some out)
    | .pending _ _ => printLoop startingHeight rs fs' out
    | .ready (some (keyData, node)) _ => do
      let h ← nodeHeight node
      if startingHeight < h then throw (.panic "traverse.rs:462 subtraction overflow")
      else
        let out := out ++ List.replicate (startingHeight - h) 9
        match keyData with
        | .error e => throw e
        | .ok kv =>
          if utf8Valid kv.key then printLoop startingHeight rs fs' (out ++ kv.key ++ [10])
          else throw .keyFromUtf8

/-- `traverse::print`, src/traverse.rs:455-469. -/
def printNode (sched : List Bool) (node : Addr) : Prog (Option Bytes) := do
  let startingHeight ← nodeHeight node
  printLoop startingHeight sched [Frame.new node .default] []

/-- `Tree::print`, src/tree.rs:139-146; `Hyperbee::print`, src/hb.rs:66-70. -/
def print (sched : List Bool) : Prog (Option Bytes) := do
  match ← getRoot false with
  | none => throw .noRoot
  | some root => printNode sched root

end Prog

/-- The calls of a handle, src/hb.rs:45-187, those of the `debug` feature too. -/
inductive Ask where
  | call (c : Cmd)
  | height
  | print (sched : List Bool)

/-- What a call returns.  (`text none`: `print` was not polled to its end.) -/
inductive Said where
  | reply (r : Reply)
  | height (n : Nat)
  | text (t : Option Bytes)
  | error (e : Err)
  deriving DecidableEq

/-- What a call returns, when it runs from start to end. -/
def saidOf (f : α → Said) : Except Err α → Said
  | .ok a => f a
  | .error e => .error e

/-- One call, from start to end. -/
def ask : Ask → St → Said × St
  | .call c, s => (.reply (exec c s).1, (exec c s).2)
  | .height, s => (saidOf .height (height s).1, (height s).2)
  | .print sched, s => (saidOf .text (print sched s).1, (print sched s).2)

/-- The future of a call, and what it returns. -/
def Prog.said (f : α → Said) : Prog α → Prog Said
  | .pure a => .pure (f a)
  | .throw e => .pure (.error e)
  | .step x k => .step x fun r => (k r).said f

/-- The future of a call. -/
def Prog.ask : Ask → Prog Said
  | .call c => Prog.said .reply (Prog.exec c)
  | .height => Prog.said .height Prog.height
  | .print sched => Prog.said .text (Prog.print sched)

/-- Calls that only read. -/
def Ask.looks : Ask → Bool
  | .call c => c.looks
  | _ => true

end Hyperbee
