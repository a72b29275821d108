import Verif.Model.SubAsync
/-!
# Counting what calls do

What the futures of `Model/Async` do when they are run: the blocks they fetch from the core and
decode, and the steps they take.
-/

namespace Hyperbee

/-- The block a step fetches from the core and decodes, src/blocks.rs:76-88 (none when the block is
missing or cannot be decoded). -/
def Atom.decodes : Atom β → St → List Nat
  | .coreFetch q, s =>
    match (getFromCore q s).1 with
    | .ok (some _) => [q]
    | _ => []
  | .under _ _ x, s => x.decodes s
  | _, _ => []

/-- The blocks a future fetches and decodes when it is polled to its end, in the order in which it
does. -/
def Prog.decodes : Prog α → St → List Nat
  | .pure _, _ => []
  | .throw _, _ => []
  | .step x k, s => x.decodes s ++ (k (x.run s).1).decodes (x.run s).2

/-- The steps a future takes when it is polled to its end. -/
def Prog.steps : Prog α → St → Nat
  | .pure _, _ => 0
  | .throw _, _ => 0
  | .step x k, s => (k (x.run s).1).steps (x.run s).2 + 1

/-- The blocks fetched and decoded in the course of a sequence of calls, each awaited before the next. -/
def decodedBy : List (Option Prefixed × Cmd) → St → List Nat
  | [], _ => []
  | x :: xs, s => (Prog.execVia x).decodes s ++ decodedBy xs (execVia x s).2

/-- The same of futures that overlap, as in `Prog.interleave`: which future decoded which block. -/
def Prog.decodedIn : List Nat → List (Prog α) → St → List (Nat × Nat)
  | [], _, _ => []
  | i :: is, ps, s =>
    match ps[i]? with
    | none => decodedIn is ps s
    | some p =>
      (match p with
        | .step x _ => (x.decodes s).map fun q => (i, q)
        | _ => []) ++ decodedIn is (ps.set i (p.next s).1) (p.next s).2

end Hyperbee
