import Verif.Model.DebugAsync
import Verif.Model.Machine
/-!
# The `debug` feature with machine integers

The programs of `Model/DebugAsync` with the arithmetic written out, as in `Model/Machine`.
-/

namespace Hyperbee

namespace Machine

/-- The loop of `Node::height`, src/lib.rs:207-216; `out += 1`, src/lib.rs:210. -/
def heightLoop (μ : Machine) : Nat → Nat → Addr → Prog Nat
  | 0, _, _ => Prog.throw .diverge
  | fuel + 1, out, curChild => do
    let out ← μ.add out 1
    let n ← Prog.readNode curChild
    if n.children.length = 0 then Pure.pure out
    else do
      let nextChild ← μ.getChild curChild 0
      heightLoop μ fuel out nextChild

/-- `Node::height`, src/lib.rs:203-218. -/
def nodeHeight (μ : Machine) (a : Addr) : Prog Nat := do
  let leaf ← Prog.isLeaf a
  if leaf then Pure.pure 1
  else do
    let curChild ← μ.getChild a 0
    let fuel ← Prog.descentFuel
    μ.heightLoop fuel 1 curChild

/-- `Tree::height`, src/tree.rs:74-85. -/
def height (μ : Machine) : Prog Nat := do
  match ← μ.getRoot false with
  | none => Pure.pure 0
  | some root => μ.nodeHeight root

/-- The loop of `traverse::print`, src/traverse.rs:460-467.  A difference below zero (src/traverse.rs:462)
panics in every build: without overflow checks it is so large that `repeat` panics. -/
def printLoop (μ : Machine) (startingHeight : Nat) : List Bool → List Frame → Bytes → Prog (Option Bytes)
  | [], _, _ => Pure.pure none
  | r :: rs, fs, out => do
    let (p, fs') ← μ.poll r fs
    match p with
    | .ready none _ => Pure.pure (some out)
    | .pending _ _ => printLoop μ startingHeight rs fs' out
    | .ready (some (keyData, node)) _ => do
      let h ← μ.nodeHeight node
      if startingHeight < h then Prog.throw (.panic "traverse.rs:462 subtraction overflow")
      else
        let out := out ++ List.replicate (startingHeight - h) 9
        match keyData with
        | .error e => Prog.throw e
        | .ok kv =>
          if utf8Valid kv.key then printLoop μ startingHeight rs fs' (out ++ kv.key ++ [10])
          else Prog.throw .keyFromUtf8

/-- `traverse::print`, src/traverse.rs:455-469. -/
def printNode (μ : Machine) (sched : List Bool) (node : Addr) : Prog (Option Bytes) := do
  let startingHeight ← μ.nodeHeight node
  μ.printLoop startingHeight sched [Frame.new node .default] []

/-- `Tree::print`, src/tree.rs:139-146. -/
def print (μ : Machine) (sched : List Bool) : Prog (Option Bytes) := do
  match ← μ.getRoot false with
  | none => Prog.throw .noRoot
  | some root => μ.printNode sched root

/-- The future of a call. -/
def ask (μ : Machine) : Ask → Prog Said
  | .call c => Prog.said .reply (μ.exec c)
  | .height => Prog.said .height μ.height
  | .print sched => Prog.said .text (μ.print sched)

end Machine

end Hyperbee
