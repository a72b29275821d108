import Verif.Model.Session
/-!
# A replica that holds only some of the blocks

`ReplicatingCore` (src/blocks.rs:12, 28-29; the `replicator` crate) replicates a hypercore another
peer writes to.  A replica knows a length, which may lag behind, and holds some of the blocks below
it; `core.get` of a block it does not hold gives `None` (src/blocks.rs:81-86), which
`Blocks::get` turns into `NoBlockAtSeqError` (src/blocks.rs:63-66).  The replica does not write.
-/

namespace Hyperbee

/-- The peer that writes, and the handle opened on the replica. -/
structure Replica where
  owner : St
  here : St

/-- Nothing was written and nothing has been received. -/
def Replica.init : Replica := ⟨St.init, { St.init with io := ⟨fun _ => false, true⟩ }⟩

/-- What may happen: the owner makes a call, the replica learns of a greater length, it comes to hold
other blocks than before, or something is read through it. -/
inductive ReplicaEvent where
  | write (c : Cmd)
  | learn (n : Nat)
  | hold (ρ : Nat → Bool)
  | get (k : Bytes)
  | traverse (b : TraverseConfigBuilder) (sched : List Bool)

def Replica.step (r : Replica) : ReplicaEvent → Replica
  | .write c => { r with owner := (exec c r.owner).2 }
  | .learn n => { r with here := { r.here with core := r.owner.core.take (max n r.here.core.length) } }
  | .hold ρ => { r with here := { r.here with io := ⟨ρ, true⟩ } }
  | .get k => { r with here := (exec (.get k) r.here).2 }
  | .traverse b sched => { r with here := (exec (.traverse b sched) r.here).2 }

def Replica.run (r : Replica) : List ReplicaEvent → Replica
  | [] => r
  | e :: es => (r.step e).run es

/-- The calls the owner made. -/
def ownerCalls : List ReplicaEvent → List Cmd
  | [] => []
  | .write c :: es => c :: ownerCalls es
  | _ :: es => ownerCalls es

/-- `get` through a replica, fetching the block named by the error and trying again, at most
`rounds` times. -/
def fetchGet (k : Bytes) : Nat → St → Reply × St
  | 0, s => exec (.get k) s
  | rounds + 1, s =>
    match exec (.get k) s with
    | (.error (.noBlockAtSeq q), s') =>
      fetchGet k rounds { s' with io := ⟨fun n => n == q || s'.io.readable n, s'.io.appendOk⟩ }
    | r => r

end Hyperbee
