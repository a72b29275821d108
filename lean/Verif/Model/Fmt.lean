import Verif.Model.Async
/-!
# Formatting a handle with `{:?}`

`Hyperbee`, `Prefixed`, `Tree` and `Blocks` derive `Debug` (src/hb.rs:23, src/prefixed.rs:41, src/tree.rs:24,
src/blocks.rs:20), so formatting any of them formats the cache, and with it every node of every cached
block.  The locks on the way down are asked for with `try_read`, and shown as `<locked>` when that
fails (tokio's `Debug` of `RwLock`); the nodes of a block are asked for with `try_read().unwrap()`
(src/blocks.rs:234).  Formatting does not wait and changes nothing.

Simplifications: the text itself is not modelled, only what of each node is in it.  Guards that live for
one statement are not held between steps (`Model/Async`), so a formatting on another thread at the very
moment of such a statement is not considered; it can only find more locked than is written here.
-/

namespace Hyperbee

/-- `node.try_read()` succeeds: no write guard is held, and no `write()` waits.  (A waiting `write()` of tokio's
`RwLock` has taken the permits that are left, and is given the others as they come back.) -/
def Flight.tryRead (w : Flight α) (a : Addr) : Bool :=
  (w.calls.all fun q => q.holds.all fun g => !decide (g = (a, Mode.write))) &&
  w.queue.all fun j =>
    match w.calls[j]? with
    | some q => !decide (q.needs = some (a, Mode.write))
    | none => true

/-- `format!("{:?}", handle)` panics: `BlockEntry::fmt`, src/blocks.rs:229-239, for one of the cached blocks. -/
def Flight.FmtPanics (w : Flight α) : Prop :=
  ∃ q e a, w.st.cache q = some e ∧ a ∈ e.nodes ∧ w.tryRead a = false

/-- The same of the blocks with a number below `n`, as a test. -/
def Flight.fmtPanics (w : Flight α) (n : Nat) : Bool :=
  (List.range n).any fun q =>
    match w.st.cache q with
    | some e => e.nodes.any fun a => !w.tryRead a
    | none => false

/-- What is shown of the nodes of a cached block when nothing is locked: the keys' seqs and the children's
seqs and offsets of each; `BlockEntry::fmt`, `node_debug` and `Children::fmt`, src/blocks.rs:229-239,
src/lib.rs:280-291 and 155-168.  `none`: the block is not cached, and not shown. -/
def St.shown (s : St) (q : Nat) : Option (List (Option Level)) :=
  (s.cache q).map fun e => e.nodes.map fun a => s.heap[a]?.map toLevel

end Hyperbee
