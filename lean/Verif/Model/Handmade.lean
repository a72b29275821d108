import Verif.Model.Session
/-!
# Traversals with a configuration made by hand

The fields of `TraverseConfig` are public (src/traverse.rs:100-116), so a caller can make one without
the builder and its validation.
-/

namespace Hyperbee

/-- `Hyperbee::traverse` (src/hb.rs:133-138) with the given configuration, then one `poll_next` per
element of the schedule until the stream ends. -/
def browse (conf : TraverseConfig) (sched : List Bool) (s : St) : Reply × St :=
  replyOf (collect sched conf) (fun r => .items r.1 r.2.isNone) s

/-- A call of the API (`inl`), or a traversal with a configuration made by hand (`inr`). -/
abbrev Deed := Cmd ⊕ (TraverseConfig × List Bool)

def doDeed : Deed → St → Reply × St
  | .inl c, s => exec c s
  | .inr (conf, sched), s => browse conf sched s

/-- The state after a sequence of them, each awaited before the next. -/
def doDeeds : List Deed → St → St
  | [], s => s
  | x :: xs, s => doDeeds xs (doDeed x s).2

end Hyperbee
