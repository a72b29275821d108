import Verif.Spec
/-!
# One call of the API on a handle

`exec` turns each call into the model function of the code it runs, and its `Result` into a reply.
-/

namespace Hyperbee

/-- The reply of a call: an `Err` (or a panic) is reported as such. -/
def replyOf (m : M α) (f : α → Reply) (s : St) : Reply × St :=
  match m s with
  | (.ok a, s') => (f a, s')
  | (.error e, s') => (.error e, s')

/-- `TraverseConfigBuilder::build`, then `Hyperbee::traverse` (src/hb.rs:133-138), then one
`poll_next` per element of the schedule until the stream ends. -/
def traverseSession (b : TraverseConfigBuilder) (sched : List Bool) :
    M (List (Except Err KeyValueData) × Bool) :=
  match b.build with
  | .error e => throw e
  | .ok conf => do
    let (xs, fin) ← collect sched conf
    pure (xs, fin.isNone)

/-- One call through a handle: the methods of `Hyperbee`, src/hb.rs:45-187.  `reopen` is dropping
the handle and `Hyperbee::from_hypercore` (src/hb.rs) on the same core. -/
def exec (c : Cmd) (s : St) : Reply × St :=
  match c with
  | .version => replyOf version .version s
  | .get k => replyOf (get k) .got s
  | .put k v => replyOf (put k v) (fun r => .put r.1 r.2) s
  | .putCas k v cas => replyOf (putCompareAndSwap k v cas) (fun r => .putCas r.1 r.2) s
  | .del k => replyOf (del k) .del s
  | .delCas k cas => replyOf (delCompareAndSwap k cas) .delCas s
  | .createHeader m => replyOf (createHeader m) .created s
  | .traverse b sched => replyOf (traverseSession b sched) (fun r => .items r.1 r.2) s
  | .reopen => (.opened, St.open s.core)

/-- A sequence of calls, each awaited before the next. -/
def run : List Cmd → St → List Reply × St
  | [], s => ([], s)
  | c :: cs, s =>
    let (r, s') := exec c s
    let (rs, s'') := run cs s'
    (r :: rs, s'')

/-- The state after a sequence of calls. -/
def runSt (cs : List Cmd) (s : St) : St := (run cs s).2

/-- The replies of a sequence of calls. -/
def runReplies (cs : List Cmd) (s : St) : List Reply := (run cs s).1

/-- A state some history on an empty core leads to. -/
def Reachable (s : St) : Prop := ∃ cs, s = runSt cs St.init

end Hyperbee
