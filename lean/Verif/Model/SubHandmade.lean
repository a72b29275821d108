import Verif.Model.Handmade
import Verif.Model.SubSession
/-!
# Traversals of a sub-database with a configuration made by hand

`Prefixed::traverse` (src/prefixed.rs:130-177) takes a `&TraverseConfig`, whose fields are public
(src/traverse.rs:100-116).
-/

namespace Hyperbee

/-- `Prefixed::traverse` (src/prefixed.rs:130-177) with the given configuration, then one `poll_next` per
element of the schedule until the stream ends. -/
def Prefixed.browse (p : Prefixed) (conf : TraverseConfig) (sched : List Bool) (s : St) : Reply × St :=
  replyOf (p.collect sched conf) (fun r => .items r.1 r.2.isNone) s

/-- A call or such a traversal, on the database itself (`none`) or through a sub-database. -/
def doDeedVia (x : Option Prefixed × Deed) (s : St) : Reply × St :=
  match x with
  | (none, d) => doDeed d s
  | (some p, .inl c) => p.exec c s
  | (some p, .inr (conf, sched)) => p.browse conf sched s

/-- The state after a sequence of them, each awaited before the next. -/
def doDeedsVia : List (Option Prefixed × Deed) → St → St
  | [], s => s
  | x :: xs, s => doDeedsVia xs (doDeedVia x s).2

end Hyperbee
