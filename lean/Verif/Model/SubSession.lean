import Verif.Model.Session
import Verif.Model.Prefixed
/-!
# Calls through sub-databases

`Hyperbee::sub` (src/hb.rs:128-131) hands the same `Shared<Tree>` to a `Prefixed`, so all
sub-databases of a database, and the database itself, work on one state.
-/

namespace Hyperbee

/-- `TraverseConfigBuilder::build`, then `Prefixed::traverse`, then one `poll_next` per element of
the schedule until the stream ends. -/
def Prefixed.traverseSession (p : Prefixed) (b : TraverseConfigBuilder) (sched : List Bool) :
    M (List (Except Err KeyValueData) × Bool) :=
  match b.build with
  | .error e => throw e
  | .ok conf => do
    let (xs, fin) ← p.collect sched conf
    pure (xs, fin.isNone)

/-- One call through a sub-database: the methods of `Prefixed`, src/prefixed.rs:58-176.  It has no
`version`, no `create_header` and no way to reopen; these are made on the database itself. -/
def Prefixed.exec (p : Prefixed) (c : Cmd) (s : St) : Reply × St :=
  match c with
  | .get k => replyOf (p.get k) .got s
  | .put k v => replyOf (p.put k v) (fun r => .put r.1 r.2) s
  | .putCas k v cas => replyOf (p.putCompareAndSwap k v cas) (fun r => .putCas r.1 r.2) s
  | .del k => replyOf (p.del k) .del s
  | .delCas k cas => replyOf (p.delCompareAndSwap k cas) .delCas s
  | .traverse b sched => replyOf (p.traverseSession b sched) (fun r => .items r.1 r.2) s
  | .version => Hyperbee.exec .version s
  | .createHeader m => Hyperbee.exec (.createHeader m) s
  | .reopen => Hyperbee.exec .reopen s

/-- A call on the database itself (`none`) or through a sub-database. -/
def execVia (x : Option Prefixed × Cmd) (s : St) : Reply × St :=
  match x.1 with
  | none => exec x.2 s
  | some p => p.exec x.2 s

/-- A sequence of calls of both kinds. -/
def runVia : List (Option Prefixed × Cmd) → St → List Reply × St
  | [], s => ([], s)
  | x :: xs, s =>
    let (r, s') := execVia x s
    let (rs, s'') := runVia xs s'
    (r :: rs, s'')

end Hyperbee
