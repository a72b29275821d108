import Verif.Model.Session
/-!
# Cores from which blocks are removed

A hypercore can drop the content of single blocks (`Hypercore::clear`, used by applications to free
space; the library never calls it).  Reading such a block gives `None` (src/blocks.rs:81-86), which
`Blocks::get` turns into `NoBlockAtSeqError` (src/blocks.rs:63-66).  The length does not change, and
later blocks keep their numbers.  A handle keeps in its cache what it read before (src/blocks.rs:60-68).
-/

namespace Hyperbee

/-- A call, or the removal of a block from the storage. -/
inductive SpaceEvent where
  | call (c : Cmd)
  | clear (q : Nat)

/-- The storage without block `q`. -/
def St.clear (q : Nat) (s : St) : St := { s with io := { s.io with readable := fun n => n != q && s.io.readable n } }

/-- A call on such a core.  Opening the core again (`reopen`) does not bring removed blocks back. -/
def callCleared (c : Cmd) (s : St) : Reply × St :=
  ((exec c s).1, { (exec c s).2 with io := s.io })

/-- The replies to the calls and the state at the end. -/
def runSpace : List SpaceEvent → St → List Reply × St
  | [], s => ([], s)
  | .call c :: es, s =>
    let (r, s') := callCleared c s
    let (rs, s'') := runSpace es s'
    (r :: rs, s'')
  | .clear q :: es, s => runSpace es (s.clear q)

/-- The calls alone. -/
def spaceCalls : List SpaceEvent → List Cmd
  | [] => []
  | .call c :: es => c :: spaceCalls es
  | .clear _ :: es => spaceCalls es

end Hyperbee
