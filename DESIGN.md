# Design of the verification of cowlicks/hyperbee

The Rust sources in `/repo` were read as text. This repository holds a Lean 4 model of them
(`lean/Verif/Model`), a small independent specification (`lean/Verif/Spec.lean`), helper lemmas
(`lean/Verif/Proof`) and the property theorems (`lean/Verif/Props`). `MANIFEST.json` maps each
property of `properties.jsonl` to theorem names.

## 1. Trusted base

* The Lean 4.33.0 kernel.
* Axioms: `propext`, `Classical.choice`, `Quot.sound` only. No other axioms, no `sorry`, no
  `native_decide`/`bv_decide`. `AXIOMS.md` lists the axioms of every theorem named in the manifest.
  Concrete witnesses are evaluated by the kernel (`decide +kernel`).
* The reading of the Rust code into the model. Every definition in `Verif/Model` cites the file and
  lines it transcribes. There is no mechanical link between the two.
* The specifications in `Verif/Spec.lean`, `Verif/SpecTree.lean`, `Verif/SpecDefect.lean`, `Verif/SpecCheck.lean`, `Verif/SpecFlaky.lean`, `Verif/SpecSpace.lean`, `Verif/SpecC.lean`, `Verif/SpecWire.lean`, `Verif/SpecSteps.lean`, `Verif/SpecClosure.lean`, `Verif/SpecReplay.lean`, `Verif/SpecMachine.lean`, `Verif/SpecShare.lean`, `Verif/SpecTrouble.lean`, `Verif/SpecPaging.lean`, `Verif/SpecSub.lean` and the
  statements in `Verif/Props`.

## 2. What is modelled

State. A handle (`Tree`/`Hyperbee`) is `St`: the hypercore as a list of byte blocks, the cache
(block number to decoded block), and a heap of mutable nodes (each `Arc<RwLock<Node>>` is an
address). In-place edits of cached nodes are therefore visible to later reads, as in the code.
`Io` says which blocks are readable and whether appends succeed.

Computations are `M α := St → Except Err α × St`. An error keeps the state reached. Panics
(`expect`, `unwrap`, indexing, `Vec` methods out of range, `panic!`, `todo!`) are explicit `Err.panic`
values naming the source line. Loops that are not structurally terminating take fuel and return
`Err.diverge` when it runs out. The fuel of a descent (`stepBound`) exceeds the number of nodes in
the core, so running out of it means that a node is its own descendant (C43); in reachable states it
does not happen (C19).

| Code | Model |
|---|---|
| src/keys.rs, `LimitValue` of src/traverse.rs | `Model/Bytes.lean` |
| src/schema.proto through prost (Node, YoloIndex, Level, Header, Metadata) | `Model/Codec.lean`; with prost's limits `Model/Codec64.lean` |
| src/lib.rs (Node, Children, get_index_of_key, nearest_node), src/blocks.rs reads | `Model/State.lean` |
| src/changes.rs, src/blocks.rs `reorder_nodes`, `add_changes` | `Model/Changes.lean` |
| src/tree.rs (version, get_root, get, create_header, traverse, open) | `Model/Tree.lean`, `Model/Traverse.lean` |
| src/put.rs | `Model/Put.lean` |
| src/del.rs | `Model/Del.lean` |
| src/traverse.rs (config, builder validation, bounds, index iterator, `poll_next` state machine) | `Model/Traverse.lean` |
| src/prefixed.rs | `Model/Prefixed.lean`, `Model/SubSession.lean`; its calls as futures: `Model/SubAsync.lean` |
| src/hb.rs (one-line wrappers of `Tree`) | `Model/Session.lean` (`exec`: one call and its reply) |
| `Hyperbee::traverse` with a configuration the builder has not seen, src/hb.rs:133-138 | `Model/Handmade.lean` |
| compare-and-swap functions that make calls through the handle or panic, src/put.rs, src/del.rs | `Model/Closure.lean` (calls of the closure run to their end; it cannot be suspended) |
| which shared value refers to which (`Shared` fields of `Tree`, `Blocks`, `BlockEntry`, `Node`, `Children`), and what reference counting frees | `Model/Drop.lean` (replication, whose tasks refer to the core too, left out) |
| several `Tree`s on one `SharedCore`, src/blocks.rs | `Model/World.lean` |
| calls through several handles whose steps interleave; when an insertion into the cache comes late (`Prog.overtaken`) | `Model/Crowd.lean`, `Model/Rivals.lean` |
| `ReplicatingCore`, src/blocks.rs | `Model/Replica.lean` |
| debug feature: `height`, `print`, src/lib.rs, src/tree.rs, src/traverse.rs | `Model/Debug.lean` |
| the same as futures, src/lib.rs:203-218, src/tree.rs:74-85 and 137-146, src/traverse.rs:450-469 (the guard of the node kept during `height` is not written down) | `Model/DebugAsync.lean` |
| the same with machine integers | `Model/DebugMachine.lean` |
| the check of the test suite, src/test/mod.rs | `Model/Check.lean` |
| reads that fail during a call, src/blocks.rs:76-88 | `Model/Flaky.lean` |
| appends that fail during a call, before or after the block was stored, src/blocks.rs:94-96 | `Model/Lossy.lean` |
| all of it mixed: failing reads, failing appends, dropped calls | `Model/Trouble.lean` |
| all of it while calls overlap through several handles and sub-databases; or through one handle with the locks of the nodes (`Flight.pollTroubled`) | `Model/Turmoil.lean` |
| a client that reads page by page (no code of the library beyond the calls it makes) | `Model/Paging.lean` |
| the same through a `Prefixed` | `Model/SubPaging.lean` |
| calls through a `Prefixed` (src/prefixed.rs:58-176) in which reads of blocks fail | `Model/SubFlaky.lean` |
| a client reading page by page while reads of blocks fail (src/traverse.rs:97-139, 311-448) | `Model/PageFaults.lean` |
| `Prefixed::traverse` with a configuration made by hand | `Model/SubHandmade.lean` |
| calls behind a readers–writer lock: src/hb.rs with `write()` for `read()` in the calls that write, or a client's own lock | `Model/Gate.lean` |
| storage from which blocks were removed (`Hypercore::clear`, never called by the library): src/blocks.rs:53-88 with `None` for removed blocks | `Model/Space.lean` |
| src/ffi.rs (uniffi), src/external.rs `hb_get` (C) | `Model/Ffi.lean` |
| src/external.rs: all functions, with the memory behind the pointers and the tasks of the runtime | `Model/External.lean` |
| the `async fn`s of all of these, one step per await | `Model/Async.lean` |
| the arithmetic on `usize` and the conversions from `u64` in search, put, del, traverse and the reordering of nodes | `Model/Machine.lean` |
| the same, and the arithmetic on bytes, in src/prefixed.rs | `Model/SubMachine.lean` |

Two layers of time. In `M` a call runs from start to end; a stream is polled step by step. In
`Model/Async` a call is a program (`Prog`) that takes one step at a time, so that calls can overlap,
be dropped half way, or meet a core that stops accepting blocks. `run_exec` (Proof/Async) proves that
a program run without interruption does exactly what `exec` does, for every call and state. Whatever
is true of calls made one after another is proved on the first layer and holds on the second.

Simplifications (repeated at the definitions):

* `u64`/`usize` are natural numbers, except in `Model/Machine.lean` and `Model/SubMachine.lean` (C89, for the calls of
  `Hyperbee` and of sub-databases, and in `Model/DebugMachine.lean` for the debug functions; not for the C interface). C20 shows that the decoders used in the model agree with ones
  that have prost's limits (ten bytes per varint, 2^64, keys of 32 bits) on every block of a core of
  fewer than 2^64 blocks. Overflow of a block count of 2^64 is not considered.
* hypercore, replication, storage and tokio are not modelled beyond: blocks are appended at the end
  or the append fails; a read returns the block or nothing. In `Model/Flaky` any read of a block may
  fail, with an error or with `None`, and work the next time (C71, C72). In `Model/Lossy` any append
  may fail, with or without having stored the block (C90).
* The steps of `Model/Async` are: looking into the cache, reading and decoding a block from the core,
  inserting into the cache, reading a node, a statement that edits a node under one guard, appending
  a block, reading the length. Guards kept over several steps are written down with these steps
  (`Atom.under`). Two semantics: `Prog.interleave` lets the steps come in any order at all (positive
  theorems are about this one, it has at least the runs of the code); `Flight.run` grants a step only
  when its node lock is free and no earlier request waits, as tokio's fair `RwLock` does (negative
  theorems are about this one). `locks_only_restrict` proves that the second is a part of the first.
  Not written down: the locks of the cache, the core, the tree and the block entries (no await happens
  while one of them is held for writing), and the separate lock of a node's children list, which a
  read of the node takes as well.
* `Model/Peer` (C80) takes the owner's calls as atomic, as only its core is seen by the replica, and only reading calls are made
  through the replica. Replication itself is not modelled beyond its effect: a known length that grows, and a set of blocks
  that can be read, which may change in any way at any time.
* Tracing is not modelled. Of `Debug` output (`Model/Fmt`) the text is not, but when formatting a handle panics and what of a
  node it shows is (C79).
* The generic key type of the search is instantiated by `LimitValue` (bytes, −∞, +∞).
* prost's limit of 100 on the nesting of messages and groups is only in `Codec64`. UTF-8 validation of the header's protocol
  string is in `Codec64` only (the library never decodes headers).
* `examples/` and `docs/` are not modelled.
* The foreign bindings: marshalling by uniffi; of the C bindings, memory that is handed out a second time (a dangling pointer
  stays dangling), Rust's aliasing rules, threads that run at the same instant, callbacks that do not return.

`Props/Suite.lean` runs the repository's own tests whose outcome is determined (those in src/put.rs, src/del.rs,
src/traverse.rs, src/prefixed.rs, src/tree.rs, examples/ram.rs and tests/) on the model, with the same calls and
assertions; the longest are cut to 40 keys. They check the model against what the code is known to do, and prove nothing else.

## 3. Specification

`Spec.lean` knows nothing of trees, nodes, caches or encodings: an abstract database is a version
number and a map from keys to (seq, value), given as a function `Bytes → Option (Nat × Option Bytes)`.
Each call has an abstract step and the set of results it may have. The order is Lean's lexicographic
`<` on `List UInt8`. A traversal's result is specified by: strictly sorted (or strictly reverse
sorted), and an entry is in it iff it is in the map and its key is in the interval. A second
description, the log of writes (`effects`, `lastWrite`), is in terms of the calls made and the
replies seen only; C01, C07, C15, C17, C36, C38 are stated with it.

`SpecTree.lean` says what tree a list of blocks stores (`Stores`), what a B-tree of order 8 is
(`IsBTree`) and what a block may refer to (`SoundBlock`), from the decoded blocks alone.
`SpecDefect.lean` lists the defects of a core that can make a reader fail (`Blame`).
`SpecCheck.lean` lists what the check of the test suite looks at (`Checked`). `SpecFlaky.lean` says how
the items of a traversal account for a listing when reads fail (`Account`).
`SpecSpace.lean` says which blocks the newest tree refers to (`Needed`). `SpecC.lean` says, in terms of the calls
made and what they returned, which pointers a C program holds and what it may do with them (`KeepsRules`).
`SpecSteps.lean` counts what futures do: the blocks they fetch and decode, the steps they take.
`SpecClosure.lean` says how a closure that makes calls plays against a database (`Db.Plays`).
`SpecReplay.lean` says which writes of a history had an effect, `SpecMachine.lean` what fits a machine, `SpecShare.lean` which nodes a version has.
`SpecTrouble.lean` says what may become of a call when things go wrong (`Became`). `SpecSub.lean` says over which entries a traversal of a sub-database passes (`Passes`) and what it may come to (`SubWalked`). `SpecSubPaging.lean` says when bounds enclose just the sub-database (`TwoKeys`, `Db.Clean`), `SpecSubCover.lean` over which entries its traversals go whatever the configuration (`SubCovers`). `SpecPaging.lean` says which database each page sees, and in which order keys are to come.
`SpecWire.lean` says what the bytes of blocks are (`CBlock`, `CHeader`) and mean (`Reads`) according
to the protobuf encoding and src/schema.proto, without encoders or decoders.

## 4. How the properties are proved

Main line (C01–C08, C14–C19, C21, C34–C36, C38–C41, C47): a representation invariant
`Holds s d` = the core decodes to a B-tree whose in-order contents are the map of `d`, every cached
block agrees with the core except for superseded nodes, node addresses are unshared, and no live node
was edited. Each operation of the model run from a state with `Holds s d` returns the result the
abstract step gives and re-establishes `Holds` for the abstract result (`exec_refines`). Induction
over histories gives the properties for all histories. Because the code edits cached nodes in place,
the heart of the proof is that the edited nodes are exactly the ones no longer reachable from the new
root.

| Files in `Proof/` | Content |
|---|---|
| Codec, Bytes, Codec64, Wire | wire format, order |
| Core, Search | reading blocks; abstract trees, zippers, the search |
| Op, Put, Reorder, PutTop, PutRun | insertion |
| Del, DelTop, DelRun | deletion |
| Walk, Poll, Stream, Safe | traversal |
| Refine, Reach, Step, Append, Prefix, STree | the refinement; histories; stored trees |
| Rel, RelOps, RelTop, Handles, Clean | two handles on one core, with some blocks missing |
| Sub, Header, Cost, Blame | sub-databases; header; number of reads; corrupt cores |
| Foreign | from any core that stores a B-tree to the invariant |
| Compose | properties closed under composition |
| Async, Interleave, Readers, Sched, Commit, Fault, Flight, Honest | the step-by-step layer |

The property theorems are in `Props/`, by subject. Each has concrete cases (`example`) beside it.

| Property | Plan |
|---|---|
| C01 C02 C03 C04 C05 C06 C07 | refinement of the abstract map by `put`/`del`/CAS/`get`/`create_header`, then induction over histories |
| C08 | structural part of the invariant, stated on the decoded core |
| C09 C10 C11 C13 | traversal of a tree satisfying the invariant; spec by sortedness and membership |
| C12 | for the poll machine: any schedule yields a prefix, every Pending is woken or waiting; enough ready polls complete |
| C14 | for every state whatsoever: new core = old core ++ at most the stated number of blocks |
| C15 C17 | every prefix of a reachable core satisfies the invariant for the corresponding prefix history |
| C16 C18 | two handles on one core run every call in step (a relation between their nodes) |
| C19 | corollary of the refinement (results are `ok`), with fuel sufficiency |
| C20 | codec round trip for all inputs, and the 64-bit agreement |
| C21 | structural part of the invariant: references go backward, preorder |
| C22 C23 C24 C25 C51 | equations for `Prefixed`, injectivity, range lemmas. C23 and C25 are false as stated: negations with witnesses, and partial theorems under the needed hypothesis |
| C26 | false as stated (unbounded sides given explicitly are rejected): negation and partial theorem |
| C27 | case analysis over the order laws; a negation shows validation is needed |
| C28 | direct, plus the refinement started from any header; the decoder of headers against the protobuf rules (`Proof/WireHeader.lean`) |
| C29 | order laws by induction |
| C30 C34 C35 | counting on the tree invariant |
| C31 | false: concrete schedules losing an update, losing a third key for ever, and making the database panic for ever; positive theorem: calls that do not overlap act as in the sequential model |
| C32 C49 | false for the live handle: concrete witnesses; positive theorems: the append is the last step, so the core is unchanged (or has only its header) and a handle opened on it behaves as if the call had not been made |
| C33 | false: concrete witnesses (an entry too many, an entry repeated, entries missed, a panic); positive theorems: without writes through the same handle the stream is a snapshot; with any writes, each entry is the content of the block it names and in range |
| C36 | instance of the refinement |
| C37 | false: witness (panic, no callback); positive for present keys with a value |
| C38 | corollary of the refinement |
| C39 | reads preserve the invariant and the core |
| C42 | a relation between a reader's run among others and its run alone on a core fully in memory; any schedule |
| C52 | false: concrete schedules (an error, a key missed, a panic, another key's value); positive theorems: for the time before the write changes a node; and for any schedule, each entry reported is the content of the block it names |
| C40 C41 C47 | instances of the refinement and the block decoding |
| C43 | false: witnesses (odd child list, bad offset, too few children, cycle); positive theorem: these four defects are the only causes of failures other than errors, for gets, traversals and `height` |
| C44 | monotonicity: a successful sparse read equals the full read |
| C45 | false: witness 10 < 9; positive for equal digit counts |
| C46 | wrappers, direct |
| C48 | false: witness; positive for streams that end by exhaustion |
| C50 | counting on the tree invariant |
| C53 | false: a traversal and a put wait for each other, and three deletions alone can (stuck configurations, closed under every further poll); positive theorems: without traversals and deletions every fair run ends (some waiting call can always go on, and programs are well-founded); with deletions exactly unless a ring of them forms (`Proof/Ring.lean`); readers never wait; one call alone never waits |
| C54 | a relation between contents and bytes with the literal tag bytes, functional in both directions; the writer satisfies it, then histories |
| C55 | a relation between bytes and meanings by the protobuf rules; equivalence with the reader (prost's limits) |
| C56 | from the stored tree of the specification to the invariant (references are distinct since the nodes' first keys are), then the refinement |
| C57 | each item of the stream comes with a node at the depth of its key; the UTF-8 check against Lean's own encoder; outlines cut at the keys of least depth |
| C58 C59 C60 C61 | the exact behaviour behind C23, C26, C45 and C25: equivalences, with the failing side constructed for every pair that is not isolated; `drive_run_err` follows a stream up to the item the caller fails on |
| C62 | the exact form of C48: `Proof/Repoll.lean` follows, through every poll, which keys the outermost node still has before it (`Todo`) |
| C63 | `Proof/Log.lean` follows each program through every possible result of its steps (`Quiet`, `Scribe`: what it may append, with which reply it then ends), then an invariant (`Kept`) along the interleaving; nothing is assumed about the state |
| C64 | false (witness); partial: from C63 |
| C65 | false (witness, with a proof that every later history fails: `Headless`); partial: from C63 |
| C66 | `Proof/Used.lean`: the reader's program run on a growing core does what the handle, as earlier calls left it, does on the core at its first step (`SimB`, for the names of the nodes in use; from the same laws of steps as C42, `Proof/Laws.lean`; more allowed descent steps change nothing if fewer were enough); `Proof/OwnRun.lean`: invariant of the reading handle along any interleaving (`World.interleave_own`), a handle left by earlier calls shows any later core (`Holds.catch_up`), and where a writer's core can be meanwhile (`history_core`) |
| C67 | `Proof/Ring.lean`: each kind of call keeps a discipline of what it holds while it asks (`Fits`); if nobody can go on, whoever holds a lock asks for one, and what is asked for is held; from the well-founded argument of C53 |
| C68 | `Proof/Duo.lean`, `Duet.lean`, `DuetOps.lean`, `DuetDel.lean`: the writer among readers and the writer alone step together (`Duet`), their memories related by a partial injection of addresses, all other nodes in the shared memory being untouched copies of blocks; `Proof/Load.lean`: what readers can do to the memory; `Proof/Browse.lean`, `Steady.lean`, `SteadyRun.lean`: a put searches first, reading any copy of a block (`Browse`), and edits only nodes on its path, which are taken over into the relation when the search is done (`Duo.adoptPath`), so late copies do not matter; witness: `repair` asks for the child again after editing it, gets a copy a reader put there late, and writes that |
| C69 C70 | `Proof/Check.lean`: `check_tree` ends well or in a panic according to `Checked` (`SpecCheck.lean`), on any finite tree; the bound on the depth is never met because nodes on a branch are distinct (`Rep.depth_lt`); B-trees are `Checked`; forged cores as witnesses of what it does not see |
| C71 | false (witness: a deletion whose read fails has edited the cached tree; the next put writes that, and another key is lost); partial: `Proof/Flaky.lean`: a search with failing reads has loaded blocks and no more (`Frail`); puts edit only when they have read all they need (`FrailW`); deletions that delete nothing edit nothing (`Idle`); `Proof/FlakyLeaf.lean`: the node a search finds is the leaf of the statement (`canSpare_found`), and from a leaf that can spare the key a deletion reads nothing after its first edit (`unmoved_delChanges`) |
| C72 | false (witness: the stream panics); partial: `Proof/FlakyStream.lean` follows the stream through every poll (`poll_flakes`): it goes on past the key or child it could not read, or cannot be polled again |
| C73 | `Proof/Gate.lean`: either readers only have the lock, and see one unchanging database (`Inv`, `Ok`), or one writer alone has it, and what is left of it runs as in the sequential model (`Gate.Sound`); the code itself takes the lock for reading everywhere (C31, C52), so this is about the code with that changed, or a client's own lock |
| C74 | `Proof/Space.lean`: a call on a core with gaps does in lockstep what it does without (`Lock`) or names a missing block; the relational proofs (`Proof/Rel*.lean`) track which blocks a call can ask for (`Live.needs`), so it names a block in use; `Wrote.live` shows a write brings only its own block into use; a lookup of a key loads the block and the node of that key (`get_touches`) |
| C75 | `Proof/CostWrite.lean`: a write fetches for its search (as C30), for at most two more searches, and at most four siblings per level; `Proof/Lazy.lean`: amortised accounting of a stream (`Pay`): each frame of the stack prepays what it can still cost without yielding, and each item pays for the frames it opens; `Proof/Thin.lean`: with the fetched blocks alone a call does the same |
| C76 | `Proof/Lengths.lean`: lengths of the encodings of numbers, fields, nodes and blocks, from the numbers being below 2^64 (`fits_numbers`, shared with C20) and at most eight keys and nine children in a node; with C35 (how many nodes a write appends) and C54 (the bytes of a block); the bound for block `q` by induction over the history, the tree before it having at most log5(q) + 1 levels |
| C77 | `Proof/External.lean`: what each cell of memory holds is what the trace says is held (`CInv.tags`); the tasks are the gets of the trace; a task that is not over has its database (`CSt.Safe`), by the rule on closing; a task that waits without its database stays until its next turn, which is undefined (`waits_run`) |
| C78 | `Proof/ExternalGet.lean`: behind each pointer is a handle on which only gets run, so the theory of overlapping readers (C42) applies to each (`BInv.one`); what was answered is kept in the invariant with the memory it lies in (`BInv.ans`); a get ends by induction over its program |
| C79 | false: a put waiting for a node makes `try_read().unwrap()` fail (witness); reads and header creation take read locks only (`ReadLocks`, C53), so only puts and deletions in flight can be the cause; cached nodes of the tree agree with the core by `Coh` |
| C80 | `Proof/Dream.lean`: what a call may reply when each fetch gives the block of the one list `F` or fails (`Dream`); `Proof/PeerSim.lean`: every call on the shared handle simulates such a one, the cache holding only blocks of the owner's core (`KnownL`, `OkL`); `Proof/DreamRun.lean`: a dream is a run of a fresh handle on `F`; `Proof/Peer.lean`: the invariant of the peer (`Peer.Good`), by induction over the events |
| C81 | `Model/SubAsync.lean`: calls through sub-databases as futures; `Proof/SubAsync.lean`: the simulation of C42 extended to the closure a sub-database maps over its stream (`Laws.driveMap`), handles of one core reply alike through sub-databases too (`via_same`) |
| C82 | false: witnesses (a child in the block to be written; leaves without keys, an only child, too many children, the same child twice); positive theorem for insertions: without the four defects of C43 and with no reference to the next block they end in a result or an error, and append one block. `Proof/Damage.lean`: collecting and reordering nodes is safe without a tree (`Drafted`, `reorderLoop_safe`) |
| C83 | false: witness (bounds 5 and 3, the entry at 5 is yielded); exact theorem for every configuration (`Covers`, `SpecCover.lean`). `Proof/Alike.lean`: two configurations that start at the same bound and whose bounds checks agree on the keys behind it make the same traversal, and each is like one whose check is right (`mended`); `Proof/Safe.lean`: a stream only visits keys behind the bound it starts from (`Onside`) |
| C84 | `SpecSteps.lean`: the blocks a future decodes (`Prog.decodes`). `Proof/Once.lean`: a future never decodes a block it has seen in the cache (`Thrifty`), shown of every call step by step (`good1_acts`) |
| C85 | `Prog.after` polls a future a given number of times. `Proof/Steps.lean`: a logic for counting steps (`Takes`), with the number of nodes to be written as the postcondition of the tree surgery; `Proof/StepsCall.lean`: whole calls on a tree of a given height, and the height bounds of C20 and C30 |
| C86 | false for functions that write and then approve: concrete witnesses (another key deleted, a neighbour deleted too, a panic, a put that leaves nothing); positive theorems: any function that refuses or panics, and any that only looks. `Proof/Closure.lean`: the second half of a call works from any state the first half's cache was extended to (`putLoop_found`, `delChanges_found`) |
| C87 | false: a circle of references through the cache (`drop_frees_false`). `Proof/Drop.lean`: nothing in a circle is freed (`circle`); nothing leaves the cache (`exec_stays`); a call that searches a tree leaves its root there (`exec_laden`); a call without a tree to search fetches nothing (`exec_bare`) |
| C88 | `Proof/Replay.lean`: a swap that is made is a plain write (`exec_again`); the last write of a history (`last_write`); cores decide (C16). Conversely lookups, which the core decides, tell one write from another, and every prefix of a core is the core of a history (`history_prefix`) |
| C89 | `Model/Machine.lean` writes the futures again with the arithmetic of a machine; `Proof/Machine.lean`: both take the same steps (`Mirror`), as long as what the steps report fits, with bounds on indices, paths and numbers of changed nodes as postconditions; panics of the unbounded program on node numbers are excluded by C19; `Proof/SubMachine.lean`: prefixing, incrementing and stripping compute what they compute with numbers without end |
| C90 | `Proof/Lossy.lean`: a call in which an append fails has taken the steps before it, and the append itself if the block was stored, and takes no others (`GivesUp`, as for C32); after a stored append only a put that created the header goes on (`after_exec`, as for C49) |
| C91 | witnesses in `Props/Rivals.lean`; the log as for C63 (`Kept` looks at the core only); `Proof/Rivals.lean`: calls that keep apart (`World.apart`, `Model/Rivals.lean`) are followed step by step against the world in which the calls that have returned were made at once (`Serial`); `Proof/Linear.lean`: with readers among them (`World.orderly`), a reading call is put in order at its first step, its reply being fixed then (`Proof/Used.lean`), a writing call at its last (`Lin`); readers that never return are left out again at the end |
| C92 | each version's tree takes over only references of the one before or of its own block (`Wrote.live`), chained over versions (`Shares`, `Proof/Share.lean`); the bound on dropped nodes by counting keys: the shared nodes carry the same keys on both sides |
| C93 | `Proof/Trouble.lean`: a call about one entry takes its steps as usual up to the first one that goes wrong, and no others (`troubled_cases`, from `Bails` for reads and `GivesUp` for appends), so the core is as before, as after the header, or as after the call (`after_exec`); traversals append nothing and are as for C72 |
| C94 | witness in `Props/Paging.lean`; `Proof/Paging.lean`: the builder of every page but the first differs from the first in one bound, which is a key of the range (`Pager`), so it is accepted unless nothing can be left; the rest from what traversals return (C09–C11) by induction over pages |
| C95 | `Proof/SubTrouble.lean`: the stream with the closure that cuts the keys is compared to the one without (`drive_strip`), for which C72's account is known; all other calls through a sub-database are calls on the database itself, as for C93 |
| C96 | `Proof/Log.lean`, which follows a program through every result of its steps (C63), now also through an append that fails after storing (`Atom.Outcome`, `Kept`); `scribe_execVia` for sub-databases |
| C97 | `Proof/Turmoil.lean`: what a failing step returns is among the results for which `Hon` (C52) already vouches; that the index of a cached block can be read excludes headers |
| C98 | `Proof/Standstill.lean`: what a call asks for while it holds a lock is fixed by the kind of the call, whatever its steps return (`Fits.step`), so `Flight.settles` and `Suits.progress` (C67) carry over; the measure also goes down when a call is dropped (`acc_dwindles`) |
| C99 | `Proof/Pace.lean`: a potential for streams in streams (`Paced`): what is left of the node in hand, at most 8 polls per level; it is reset to at most `8 * h + 2` by an item (`poll_pace`). C75 bounds the total over a whole traversal, this the gap at each point. The steps of a poll are those of one search in a node of at most eight keys (`poll_steps`) |
| C100 | `Proof/PageEnds.lean`: by C99 a page polled so often has an item or is the last (`page_live`); by C94 no key comes twice, so the pages are no more than the keys; exactness by the uniqueness of the listing (`Lists.unique`) |
| C101 | `Proof/TroubleSteps.lean`: a step that fails is followed by nothing but the reply (`trouble_ends`, from `Bails` and `GivesUp`), and one that does not takes the call one step on, so a call takes at most the steps it takes when nothing fails (`afterTroubled_ends`, with the bound of C85 in every state that clients of C95 can be in, `Holds.steps_log`) |
| C102 | `Proof/DebugAsync.lean`: the programs run as the functions of `Model/Debug` (`does_height`, `does_print`), simulate under interference like the other readers (`sim_ask`, C42), and under failing reads follow the stream of C72 (`print_flakes`) |
| C103 | `Proof/DebugOwn.lean`: as C66, for any program that asks for the length of the core first (`World.first_read`); more fuel on a longer core does not change a height that was found (`ideal_heightLoop_more`) |
| C104 | witness `sub_paging_false` in `Props/SubPaging.lean`: without bounds the pages go round in a circle for ever, by induction over pages (replies depend only on the blocks, `subTraverse_same`); `Proof/SubPaging.lean`: where the bounds enclose of what is stored exactly the sub-database (`page_bounds`), a page is what the database `Db.sub` returns, so `page_cases` of C94 applies; ending as C100 (`sub_page_live`); when nothing in the range changes, sorted lists of the same entries are equal (`SubLists.unique`) |
| C105 | false: witnesses (bounds 5 and 3; minus infinity as upper bound). `sub_handmade_exact` says for every configuration what is gone through (`SubCovers`, `SpecSubCover.lean`) and when it panics, with none of the exceptions of `sub_traversal_exact` (C25): the configuration made by `Prefixed::traverse` is like one whose bounds check is right (`mended`, C83), and the comparison of C83 goes through with the closure that cuts the keys (`drive_alike`) |
| C106 | false: for the default separator no configuration does it (`sub_whole_false`). `sub_whole_iff` says for which prefixes and separators one does, from C105: a configuration must cover every key of the sub-database (`miss`) and no other (`stray`); with an upper bound it cannot cover all keys, without one it covers as many bytes 255 as the separator has (`beyond`). `sub_whole_partial`: for given contents there is always a configuration |
| C107 | witness `sub_read_error_false` in `Props/SubFlaky.lean`: a failed deletion in one sub-database destroys a key of another (`decide +kernel`); calls other than traversals are calls on the database, so C71 applies; for traversals, whose bounds may cross, `Grows` in `Proof/SubFlaky.lean`: reading, whatever fails and however it ends, only extends the state; histories by induction as in C71 |
| C108 | witness `sub_gaps_false` in `Props/SubGaps.lean`: as for C72, a stream that could not find its place in a node panics when polled again; `Proof/SubGaps.lean`: `drive_cut` turns the stream of a sub-database into that of the tree with the prefix cut off every item, once all that comes has the prefix; what comes is accounted for as in C72 (`drive_flakes`), and `sub_listing` says that it is the sub-database |
| C109 | witness `page_faults_false` in `Props/PageFaults.lean`: the next page begins behind the last entry seen, and entries an error stood for never come (`decide +kernel`); partial: the client keeps of each page what comes before the first error (`Reply.untilError`, what that is: `page_faults_kept`); by C72 this is a page that could have come without failures (`page_faults` in `Proof/PageFaults.lean`), so `page_cases` of C94 applies, and a page that fails altogether changes nothing |

No property on the list is inexpressible in this model.

## 5. Mutation testing

`seeded/LOG.jsonl` records deliberate bugs put into a scratch copy of the model. Each was put into
both layers (`M` and `Prog`). For each: which theorems failed to build; which property statements
were refuted by evaluating instances of them on the mutated model (a set of histories with splits,
rotations, merges, compare-and-swaps and traversals); which theorems were tightened in response.
