import Verif.Model.Flaky
import Verif.Model.Replica
/-!
# A replica that replicates while it is read

As in `Model/Replica`, but the calls through the handle of the replica are taken step by step: other
calls through it, the writer, and the replication itself go on between any two steps of a call.  A
block that a call fetches may be missing, or the read of it may fail, at that step and not at another
(src/blocks.rs:53-88).
-/

namespace Hyperbee

/-- The block a step fetches, src/blocks.rs:76-88. -/
def Atom.fetches : Atom β → Option Nat
  | .coreFetch q => some q
  | .under _ _ x => x.fetches
  | _ => none

/-- The block that is fetched in the next step. -/
def Prog.fetching : Prog α → Option Nat
  | .step x _ => x.fetches
  | _ => none

/-- Take one step, in which fetching fails as `f` says if the step fetches a block. -/
def Prog.nextFlaky (f : Option Fault) : Prog α → St → Prog α × St
  | .step x k, s =>
    match f.bind x.fail with
    | some r => (k r, s)
    | none => (k (x.run s).1, (x.run s).2)
  | p, s => (p, s)

/-- The peer that writes, the handle opened on the replica, and the calls made through it, each as far
as it has come. -/
structure Peer where
  owner : St
  here : St
  calls : List (Prog Reply)

/-- Nothing was written, nothing has been received, no call was made. -/
def Peer.init : Peer := ⟨St.init, { St.init with io := ⟨fun _ => false, true⟩ }, []⟩

/-- What may happen: the owner makes a call, the replica learns of a greater length, it comes to hold
other blocks than before, a call is made through it, or the call with the given number takes a step
(and a read in it fails). -/
inductive PeerEvent where
  | write (c : Cmd)
  | learn (n : Nat)
  | hold (ρ : Nat → Bool)
  | call (c : Cmd)
  | step (i : Nat) (f : Option Fault)

def Peer.step (l : Peer) : PeerEvent → Peer
  | .write c => { l with owner := (exec c l.owner).2 }
  | .learn n => { l with here := { l.here with core := l.owner.core.take (max n l.here.core.length) } }
  | .hold ρ => { l with here := { l.here with io := ⟨ρ, true⟩ } }
  | .call c => { l with calls := l.calls ++ [Prog.exec c] }
  | .step i f =>
    match l.calls[i]? with
    | none => l
    | some p => { l with here := (p.nextFlaky f l.here).2, calls := l.calls.set i (p.nextFlaky f l.here).1 }

def Peer.run (l : Peer) : List PeerEvent → Peer
  | [] => l
  | e :: es => (l.step e).run es

/-- What the call has replied, if it has. -/
def Peer.result (l : Peer) (i : Nat) : Option Reply := l.calls[i]?.bind Prog.result

/-- The block that the call is going to fetch in its next step. -/
def Peer.fetching (l : Peer) (i : Nat) : Option Nat := l.calls[i]?.bind Prog.fetching

/-- The calls the owner made. -/
def peerWrites : List PeerEvent → List Cmd
  | [] => []
  | .write c :: es => c :: peerWrites es
  | _ :: es => peerWrites es

/-- The calls made through the replica. -/
def peerCalls : List PeerEvent → List Cmd
  | [] => []
  | .call c :: es => c :: peerCalls es
  | _ :: es => peerCalls es

end Hyperbee
