import Verif.Model.Session
/-!
# A concrete history

Used by the examples beside the theorems: enough puts to split the root twice, then overwrites,
deletions that rotate and merge, compare-and-swaps accepted and refused, reads and a reopening.
-/

namespace Hyperbee

/-- One-byte keys. -/
def demoKey (n : Nat) : Bytes := [UInt8.ofNat n]

/-- Thirty keys, inserted out of order. -/
def demoPuts : List Cmd :=
  (List.range 30).map fun i => .put (demoKey (7 * i % 30)) (some (demoKey (100 + i)))

/-- Overwrites, deletions, compare-and-swaps, reads. -/
def demoRest : List Cmd :=
  [ .put (demoKey 3) none, .put [] (some []), .del (demoKey 8), .del (demoKey 8), .get (demoKey 3),
    .putCas (demoKey 4) (some [1, 2]) (fun o _ => o.isSome),
    .putCas (demoKey 5) (some [9]) (fun o _ => o.isNone),
    .reopen,
    .delCas (demoKey 6) (fun e => e.key = demoKey 6),
    .delCas (demoKey 7) (fun _ => false),
    .traverse {} (List.replicate 7 true),
    .del (demoKey 10), .del (demoKey 11), .del (demoKey 12), .del (demoKey 13), .version ]

/-- The whole history. -/
def demo : List Cmd := demoPuts ++ demoRest

/-- Nine puts, then all nine keys deleted. -/
def demoEmptied : List Cmd :=
  ((List.range 9).map fun i => .put (demoKey i) none) ++ ((List.range 9).map fun i => .del (demoKey i))

theorem demo_reachable : Reachable (runSt demo St.init) := ⟨demo, rfl⟩

end Hyperbee
