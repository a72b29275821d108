import Verif.Model.Async
import Verif.Model.SubSession
/-!
# Calls through sub-databases, step by step

`Hyperbee::sub` clones the `Shared<Tree>` (src/hb.rs:128-131), so futures made through sub-databases
and futures made on the database itself are all in flight on one tree.
-/

namespace Hyperbee

/-- The closure mapped over the stream, src/prefixed.rs:166-175; it is synchronous. -/
def Prog.strip (p : Prefixed) : Except Err KeyValueData → Prog (Except Err KeyValueData)
  | .error e => Pure.pure (.error e)
  | .ok x =>
    let lenDrain := p.pre.length + p.sep.length
    if lenDrain ≤ x.key.length then Pure.pure (.ok { x with key := x.key.drop lenDrain })
    else .throw (.panic "prefixed.rs:171 key.drain(..len_drain)")

/-- `TraverseConfigBuilder::build`, then `Prefixed::traverse` (src/prefixed.rs:134-176), then one
`poll_next` per element of the schedule until the stream ends. -/
def Prog.subTraverse (p : Prefixed) (b : TraverseConfigBuilder) (sched : List Bool) :
    Prog (List (Except Err KeyValueData) × Bool) :=
  match b.build with
  | .error e => .throw e
  | .ok conf => do
    let fs ← Prog.traverse (p.boundedConf conf)
    let (xs, fin) ← Prog.drive (Prog.strip p) sched fs
    Pure.pure (xs, fin.isNone)

/-- One call through a sub-database, src/prefixed.rs:58-176: each awaits the call on the tree with the
prefixed key, and does nothing else that takes time. -/
def Prog.subExec (p : Prefixed) : Cmd → Prog Reply
  | .get k => replyOf .got (Prog.get (p.withKeyPrefix k))
  | .put k v => replyOf (fun r => .put r.1 r.2) (Prog.put (p.withKeyPrefix k) v)
  | .putCas k v cas => replyOf (fun r => .putCas r.1 r.2) (Prog.putCompareAndSwap (p.withKeyPrefix k) v cas)
  | .del k => replyOf .del (Prog.del (p.withKeyPrefix k))
  | .delCas k cas => replyOf .delCas (Prog.delCompareAndSwap (p.withKeyPrefix k) cas)
  | .traverse b sched => replyOf (fun r => .items r.1 r.2) (Prog.subTraverse p b sched)
  | .version => Prog.exec .version
  | .createHeader m => Prog.exec (.createHeader m)
  | .reopen => Prog.exec .reopen

/-- A call on the database itself (`none`) or through a sub-database. -/
def Prog.execVia (x : Option Prefixed × Cmd) : Prog Reply :=
  match x.1 with
  | none => Prog.exec x.2
  | some p => Prog.subExec p x.2

end Hyperbee
