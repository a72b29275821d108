{"id": "C01", "title": "get returns the latest value", "statement": "Open a database on an empty core and run any finite sequence of put, del, put_compare_and_swap, del_compare_and_swap, create_header, get and traverse calls through one handle, each awaited before the next. Afterwards get(k) returns Some((seq, value)) exactly for the keys whose last effective write was a put, with that put's value and the block number it was written to; for every other key it returns None.", "quantifier": "all histories of operations of any length, all keys and values, all compare-and-swap functions", "why_tests_cant": "Tests run a few hundred fixed or seeded random operations; a wrong split, rotation, merge or stale cached node that only shows for a particular tree shape and history is missed.", "anchors": ["src/tree.rs: Tree::get", "src/hb.rs: Hyperbee::get", "src/put.rs: Tree::put_compare_and_swap", "src/del.rs: Tree::del_compare_and_swap", "src/lib.rs: nearest_node, get_index_of_key", "src/blocks.rs: Blocks::get, Blocks::add_changes"]}
{"id": "C02", "title": "put reports the replaced and the new block", "statement": "In every reachable state put(k, v) succeeds and returns (old, new): new is the number of the block just appended (the version before the call, or 1 when the call also had to write the header), and old is the seq get(k) would have returned before the call (None if k was absent). After it get(k) = Some((new, v)) and get of every other key is unchanged.", "quantifier": "all reachable states, all keys and values", "why_tests_cant": "Whether old/new are right depends on the whole preceding history and on the path the insert takes through the tree; tests check a handful.", "anchors": ["src/put.rs: Tree::put", "src/hb.rs: Hyperbee::put"]}
{"id": "C03", "title": "del removes exactly the given key", "statement": "In every reachable state in which k is present, del(k) succeeds, returns the seq get(k) would have returned, appends one block, and afterwards get(k) = None while get of every other key is unchanged.", "quantifier": "all reachable states, all present keys", "why_tests_cant": "Deletion has four repair cases per level in any combination over the height of the tree; samples cannot cover every combination.", "anchors": ["src/del.rs: Tree::del, repair, repair_one, Side::rotate, Side::maybe_merge", "src/hb.rs: Hyperbee::del"]}
{"id": "C04", "title": "del of an absent key changes nothing", "statement": "In every reachable state in which k is absent (also before any write), del(k) and del_compare_and_swap(k, f) return None, append no block, never call f, and change no later result of any read.", "quantifier": "all reachable states, all absent keys, all compare functions", "why_tests_cant": "Universally quantified over states and keys; includes the state with no header and the state whose tree has been emptied.", "anchors": ["src/del.rs: Tree::del_compare_and_swap"]}
{"id": "C05", "title": "put_compare_and_swap decides on the current entry", "statement": "put_compare_and_swap(k, v, f) calls f exactly with the entry currently stored under k (None if absent) and the entry about to be written. If f accepts, the outcome is that of put(k, v). If f refuses, the call returns (seq of the current entry, None), the stored contents are unchanged, and no block is appended except that the header block is written when the core was empty.", "quantifier": "all reachable states, keys, values and all functions f", "why_tests_cant": "f ranges over all functions; tests use constant true/false.", "anchors": ["src/put.rs: Tree::put_compare_and_swap", "src/hb.rs: Hyperbee::put_compare_and_swap"]}
{"id": "C06", "title": "del_compare_and_swap decides on the current entry", "statement": "del_compare_and_swap(k, f) on a present key calls f exactly with the stored entry. If f accepts, it behaves as del(k) and returns Some((true, seq)); if f refuses, it returns Some((false, seq)), appends nothing and changes nothing.", "quantifier": "all reachable states, keys and all functions f", "why_tests_cant": "f ranges over all functions and the state over all histories.", "anchors": ["src/del.rs: Tree::del_compare_and_swap", "src/hb.rs: Hyperbee::del_compare_and_swap"]}
{"id": "C07", "title": "version counts the effective writes", "statement": "version() is 0 on an empty core; after any history it is 0 if nothing was ever written, and otherwise 1 (the header) plus the number of puts and deletes that took effect. No operation ever lowers it and reads never change it.", "quantifier": "all histories", "why_tests_cant": "A statement about every history; a test checks particular counts.", "anchors": ["src/tree.rs: Tree::version, Tree::create_header, Tree::get_root", "src/blocks.rs: Blocks::append"]}
{"id": "C08", "title": "the stored tree is always a well formed B-tree", "statement": "After every history the tree stored in the core is a B-tree of order 8: keys in strictly increasing byte order, every leaf at the same depth, every node except the root holding 4 to 8 keys, every internal node one more child than keys, and the root 1 to 8 keys unless it is the only node.", "quantifier": "all histories", "why_tests_cant": "The invariant must hold after every operation of every history; check_tree in the tests checks it after sampled ones and does not check minimum fill or depth.", "anchors": ["src/put.rs: Node::split", "src/del.rs: repair, repair_one", "src/test/mod.rs: check_tree"]}
{"id": "C09", "title": "a full traversal yields every entry once, in order", "statement": "traverse with the default configuration yields exactly the stored entries (key, value, seq), each once, in strictly increasing key order, and then ends.", "quantifier": "all reachable states, all poll schedules", "why_tests_cant": "The stream walks trees of any size and shape; tests use a few sizes.", "anchors": ["src/traverse.rs: Traverse, make_child_key_index_iter", "src/tree.rs: Tree::traverse", "src/hb.rs: Hyperbee::traverse"]}
{"id": "C10", "title": "a bounded traversal yields exactly the range", "statement": "traverse with any configuration accepted by TraverseConfigBuilder yields exactly the stored entries whose key lies in the configured interval (each end inclusive, exclusive or unbounded), each once, in order.", "quantifier": "all reachable states, all accepted configurations, bounds present in the tree or not", "why_tests_cant": "Interaction of two bounds, inclusivity, direction, and where the bounds fall in a tree of any shape; tests sample small integers.", "anchors": ["src/traverse.rs: TraverseConfig::in_bounds, make_child_key_index_iter, Traverse::poll_next"]}
{"id": "C11", "title": "reversed traversal is the reverse of the forward one", "statement": "For every accepted configuration, the reversed traversal yields the same entries as the forward one, in the opposite order.", "quantifier": "all reachable states, all accepted configurations", "why_tests_cant": "Forward and reverse use different start and stop computations; equality over all trees and bounds cannot be sampled.", "anchors": ["src/traverse.rs: make_child_key_index_iter"]}
{"id": "C12", "title": "a traversal does not depend on when it is polled, and always wakes", "statement": "Whatever the pattern of ready and not-ready storage reads, the stream yields a prefix of the same sequence and completes once enough polls find their reads ready. Every poll that returns Pending has either woken its task or is waiting on a read that will, so the task is never forgotten.", "quantifier": "all schedules of poll results of any length", "why_tests_cant": "Tests run on in-memory storage where reads are always ready on the first poll.", "anchors": ["src/traverse.rs: Traverse::poll_next"]}
{"id": "C13", "title": "traversing an empty database", "statement": "Before the first write (no block, or only the header) traverse fails with the no-root error; once every key has been deleted traverse succeeds and yields nothing.", "quantifier": "all histories reaching such a state, all configurations", "why_tests_cant": "Quantifies over all histories that delete everything.", "anchors": ["src/tree.rs: Tree::traverse, Tree::get_root"]}
{"id": "C14", "title": "the core is append-only", "statement": "No operation alters, reorders or removes a block already in the core. A put or an effective del appends exactly one block (two for a write that also has to write the header); create_header and a refused compare-and-swap put append at most the header, and only to an empty core; every other operation appends none.", "quantifier": "all states and all operations, even on arbitrary (corrupt) cores and failing reads", "why_tests_cant": "Holds for every operation from every state including unreachable ones.", "anchors": ["src/blocks.rs: Blocks::append, Blocks::add_changes", "src/tree.rs: Tree::create_header"]}
{"id": "C15", "title": "every crash point recovers to a state that existed", "statement": "Cut the core of any history after any number of blocks and reopen it: the contents are exactly those after the corresponding prefix of the effective writes, and the database works normally from there.", "quantifier": "all histories, all cut points", "why_tests_cant": "Crash points between any two appends of any history.", "anchors": ["src/tree.rs: Tree::from_storage_dir, Tree::get_root", "src/blocks.rs: Blocks::add_changes"]}
{"id": "C16", "title": "the in-memory cache is invisible", "statement": "After any history, a handle with a warm cache and a handle freshly opened on the same core give the same result for every operation, and append the same bytes.", "quantifier": "all histories, all next operations and sequences of operations", "why_tests_cant": "The cache is never evicted and its nodes are edited in place by put and del; staleness would depend on history.", "anchors": ["src/blocks.rs: Blocks::get, Blocks::get_from_cache", "src/put.rs: Node::split, propagate_changes_up_tree", "src/del.rs: Side::rotate, Side::maybe_merge"]}
{"id": "C17", "title": "an old length is a snapshot", "statement": "Opening the first n blocks of a core (a checkout or a lagging replica) gives the contents as of version n, whatever was appended later.", "quantifier": "all histories and all n", "why_tests_cant": "All prefixes of all histories.", "anchors": ["src/tree.rs: Tree::get_root"]}
{"id": "C18", "title": "several handles on one core agree", "statement": "Let any number of independent handles share one core, with operations from different handles interleaved arbitrarily but each awaited before the next starts. Every operation then behaves as on a single handle: reads see the latest write whichever handle made it, and writes build on it.", "quantifier": "all numbers of handles, all interleavings of whole operations", "why_tests_cant": "Each handle has its own never-evicted cache; stale entries depend on the interleaving.", "anchors": ["src/tree.rs: Tree::from_hypercore", "src/blocks.rs: Blocks::get"]}
{"id": "C19", "title": "no panic, no spurious error, termination", "statement": "With storage that works, no operation on a reachable state panics, returns an error other than the documented ones (no root for traverse, header exists for create_header) or runs forever.", "quantifier": "all reachable states and all operations with all arguments", "why_tests_cant": "The code has some twenty expect/unwrap/index/panic sites whose unreachability depends on global tree invariants.", "anchors": ["src/blocks.rs: BlockEntry::get_tree_node", "src/del.rs: repair_one (panic!)", "src/lib.rs: get_index_of_key, nearest_node", "src/put.rs: Node::split"]}
{"id": "C20", "title": "block encoding round-trips", "statement": "Decoding an encoded block gives back the same key, value (absent and empty values being distinguished) and nodes; decoding an encoded header gives back the same header.", "quantifier": "all keys, values, node lists, and all numbers below 2^64", "why_tests_cant": "Infinite input space: varint lengths, empty lists, empty and absent values.", "anchors": ["src/blocks.rs: Blocks::add_changes, make_node_vec, BlockEntry::new", "src/schema.proto", "src/lib.rs: Node::to_level"]}
{"id": "C21", "title": "a block only refers to itself and to older blocks", "statement": "In every reachable core each node's key and child references point to existing entries of the same or earlier blocks, nodes of a block appear in depth-first order starting with the root, every node of a block is reachable from its root, and following child references always ends at a leaf.", "quantifier": "all histories, all blocks", "why_tests_cant": "Acyclicity and reachability of every reference in every reachable core.", "anchors": ["src/blocks.rs: reorder_nodes, take_children_with_seq", "src/changes.rs: Changes::add_node"]}
{"id": "C22", "title": "sub-database operations are prefixed operations", "statement": "Every get, put, del and compare-and-swap on sub(prefix, separator) does exactly what the same operation on the whole database does with prefix ++ separator ++ key; hence reading back through the sub-database gives what was written through it.", "quantifier": "all prefixes, separators, keys, histories mixing both kinds of access", "why_tests_cant": "Quantified over all histories mixing plain and sub access.", "anchors": ["src/prefixed.rs: Prefixed::get, Prefixed::put, Prefixed::del, with_key_prefix!"]}
{"id": "C23", "title": "sub-databases are isolated from each other", "statement": "Writes through sub(p1) never change what sub(p2) reads, for p1 different from p2 (same separator).", "quantifier": "all pairs of prefixes, all keys, all histories", "why_tests_cant": "Collisions need particular prefixes and keys.", "anchors": ["src/prefixed.rs: with_key_prefix!, Prefixed::put"]}
{"id": "C24", "title": "bounded traversal of a sub-database", "statement": "Traversing sub(p) with two finite bounds yields exactly the sub-database's entries in that range, in order, with the prefix and separator stripped from the keys.", "quantifier": "all prefixes, separators, bounds, contents", "why_tests_cant": "All contents including keys outside the sub-database that share bytes with the prefix.", "anchors": ["src/prefixed.rs: Prefixed::traverse"]}
{"id": "C25", "title": "unbounded traversal of a sub-database", "statement": "Traversing sub(p) without bounds yields exactly the entries written through sub(p), in order, keys stripped, and nothing else.", "quantifier": "all prefixes and separators, all contents of the rest of the database", "why_tests_cant": "Depends on the byte values of prefix and separator and on foreign keys; the tests use one ASCII prefix.", "anchors": ["src/prefixed.rs: Prefixed::traverse, increment_bytes"]}
{"id": "C26", "title": "the configuration builder accepts exactly the meaningful ranges", "statement": "TraverseConfigBuilder::build succeeds exactly when the given bounds describe a range that some key could satisfy.", "quantifier": "all combinations of set and unset fields, all bound values", "why_tests_cant": "All pairs of byte strings and infinities.", "anchors": ["src/traverse.rs: validate_traverse_config_builder"]}
{"id": "C27", "title": "accepted configurations mean what they say", "statement": "For a configuration accepted by the builder a key is treated as in bounds exactly when it satisfies both bounds as intervals are usually understood.", "quantifier": "all accepted configurations and all keys", "why_tests_cant": "All triples of byte strings.", "anchors": ["src/traverse.rs: TraverseConfig::in_bounds"]}
{"id": "C28", "title": "create_header writes the header once and first", "statement": "create_header(m) on an empty core appends exactly one block, which decodes to protocol \"hyperbee\" and m; on any non-empty core it fails and changes nothing. A put on an empty core writes the header without metadata first, and a database with a custom header behaves the same as one without.", "quantifier": "all metadata, all states, all later histories", "why_tests_cant": "All later histories over all metadata.", "anchors": ["src/tree.rs: Tree::create_header, Tree::ensure_header"]}
{"id": "C29", "title": "keys are ordered as byte strings", "statement": "Keys are ordered by the usual lexicographic order on bytes (a strict total order, a proper prefix being smaller), negative infinity is below and positive infinity above every key, and equality is consistent with it.", "quantifier": "all byte strings", "why_tests_cant": "Order laws over an infinite domain.", "anchors": ["src/keys.rs: InfiniteKeys", "src/traverse.rs: LimitValue"]}
{"id": "C30", "title": "lookups read few blocks", "statement": "get(k) on a cold handle fetches a number of blocks that grows only with the logarithm of the number of stored keys: at most one block per level for nodes and four per level for key comparisons, plus a constant.", "quantifier": "all reachable states, all keys", "why_tests_cant": "An asymptotic bound over all trees.", "anchors": ["src/lib.rs: nearest_node, get_index_of_key", "src/blocks.rs: Blocks::get"]}
{"id": "C31", "title": "overlapping puts lose no update", "statement": "Two puts issued concurrently through the same database (their futures polled in any interleaving) both take effect: afterwards each key has its own new value, or one of the two if they are equal.", "quantifier": "all interleavings of the two operations at await points", "why_tests_cant": "A race: depends on the schedule, and writers take only read locks.", "anchors": ["src/hb.rs: Hyperbee::put (tree.read())", "src/put.rs: Tree::put_compare_and_swap", "src/blocks.rs: Blocks::add_changes"]}
{"id": "C32", "title": "a failed write leaves the database usable and unchanged", "statement": "If appending to the core fails, put/del return the error and every later operation behaves as if the failed one had not been issued.", "quantifier": "all states, all operations, all failure points", "why_tests_cant": "Needs storage faults at every point of every history.", "anchors": ["src/put.rs: Tree::put_compare_and_swap", "src/del.rs: Tree::del_compare_and_swap", "src/blocks.rs: Blocks::add_changes"]}
{"id": "C33", "title": "a traversal is a snapshot", "statement": "A stream returned by traverse yields the entries as of its creation even when the database is written to before the stream has been consumed.", "quantifier": "all states, all writes between any two polls", "why_tests_cant": "All interleavings of writes and polls.", "anchors": ["src/traverse.rs: Traverse", "src/put.rs: Tree::put_compare_and_swap (in place edits)"]}
{"id": "C34", "title": "the tree's height is logarithmic", "statement": "A database with n >= 1 stored keys whose tree has h levels satisfies n >= 2*5^(h-1) - 1. (An emptied database keeps one level with no keys.)", "quantifier": "all histories", "why_tests_cant": "A bound over all histories including ones with deletions.", "anchors": ["src/put.rs: Node::split", "src/del.rs: repair"]}
{"id": "C35", "title": "writes write few nodes", "statement": "A put or del on a tree with h levels writes one block with at most 2h+1 nodes, each with at most 8 keys.", "quantifier": "all reachable states and all operations", "why_tests_cant": "A bound for every operation of every history.", "anchors": ["src/changes.rs: Changes::add_node", "src/blocks.rs: Blocks::add_changes"]}
{"id": "C36", "title": "deleting everything gives an empty database that works", "statement": "When every key has been deleted, get returns None for every key, traversal succeeds and yields nothing, and any later history whose compare functions ignore block numbers gives the same contents as on a fresh database.", "quantifier": "all histories ending with no key left, all continuations", "why_tests_cant": "All histories and continuations.", "anchors": ["src/del.rs: Tree::del_compare_and_swap", "src/tree.rs: Tree::get_root"]}
{"id": "C37", "title": "C get answers every lookup", "statement": "hb_get invokes the callback for every lookup: with the value when there is one, and with seq 0 when the key is not found.", "quantifier": "all states and keys", "why_tests_cant": "Missing-key lookups end in todo!() inside a spawned task.", "anchors": ["src/external.rs: hb_get"]}
{"id": "C38", "title": "contents depend only on the last write per key", "statement": "Two histories on fresh databases that agree, for every key, on the last effective write to that key (put of which value, or delete/none) have the same contents, however the operations on different keys are interleaved.", "quantifier": "all pairs of histories", "why_tests_cant": "Confluence over all reorderings.", "anchors": ["src/put.rs: Tree::put", "src/del.rs: Tree::del"]}
{"id": "C39", "title": "reads do not write", "statement": "get, traverse (creation and polling), version and refused compare-and-swaps on a non-empty core never append to the core and never change the result of any later operation.", "quantifier": "all reachable states and all reads", "why_tests_cant": "All states and all following operations.", "anchors": ["src/tree.rs: Tree::get", "src/traverse.rs: Traverse::poll_next"]}
{"id": "C40", "title": "absent, empty and present values are kept apart", "statement": "put(k, None), put(k, Some(empty)) and put(k, Some(v)) are each read back as written, also through a reopened core; the empty key is a key like any other.", "quantifier": "all states and keys, including the empty key", "why_tests_cant": "Quantified over states; protobuf defaults are a known source of such confusion.", "anchors": ["src/schema.proto: Node", "src/blocks.rs: BlockEntry"]}
{"id": "C41", "title": "deletions leave a tombstone block", "statement": "The block appended by an effective del(k) carries key k and no value, and no node of that block refers to the block itself as a key, so the deletion block is never returned as a value.", "quantifier": "all states and keys", "why_tests_cant": "All trees and all repair paths.", "anchors": ["src/del.rs: Tree::del_compare_and_swap", "src/changes.rs: Changes::new"]}
{"id": "C42", "title": "concurrent readers do not disturb each other", "statement": "Without writers, any interleaving of any number of gets and traversal polls gives each of them the result it would have given alone.", "quantifier": "all numbers of readers, all interleavings", "why_tests_cant": "All interleavings; readers share and fill the cache.", "anchors": ["src/blocks.rs: Blocks::get"]}
{"id": "C43", "title": "a corrupt core cannot crash the reader", "statement": "Opening a core whose blocks were not written by this library and reading from it returns an error rather than panicking or looping forever.", "quantifier": "all byte contents of the core", "why_tests_cant": "Adversarial inputs.", "anchors": ["src/blocks.rs: make_node_vec, BlockEntry::get_tree_node", "src/lib.rs: nearest_node"]}
{"id": "C44", "title": "a sparse replica never lies", "statement": "On a replica holding only some of the blocks of a reachable core, get(k) returns either the correct answer or the missing-block error naming a block that is indeed missing; once the blocks arrive a retry gives the correct answer.", "quantifier": "all histories, all subsets of blocks, all keys, all arrival orders", "why_tests_cant": "All subsets of missing blocks.", "anchors": ["src/blocks.rs: Blocks::get (NoBlockAtSeqError)"]}
{"id": "C45", "title": "numeric limits order numerically", "statement": "LimitValue::from(n) bounds compare in the order of the numbers.", "quantifier": "all pairs of numbers", "why_tests_cant": "All pairs of numbers.", "anchors": ["src/traverse.rs: impl From<usize> for LimitValue"]}
{"id": "C46", "title": "the uniffi bindings agree with the Rust API", "statement": "get, put, delete and version of the uniffi Hyperbee and Prefixed objects return the same data as the Rust methods.", "quantifier": "all states and arguments", "why_tests_cant": "All states and arguments.", "anchors": ["src/ffi.rs: Hyperbee, Prefixed, Gotten, Putten"]}
{"id": "C47", "title": "a returned seq names the block holding the entry", "statement": "Whenever get, put or a traversal reports seq for a key, block seq of the core decodes to exactly that key and value, now and in every later state.", "quantifier": "all reachable states, all keys, all later histories", "why_tests_cant": "All later histories.", "anchors": ["src/lib.rs: Node::get_key_value, KeyValueData"]}
{"id": "C48", "title": "a finished stream can be polled again", "statement": "After a traversal has yielded None, polling it again yields None and does not panic.", "quantifier": "all states, configurations and numbers of further polls", "why_tests_cant": "Needs polling past the end on every kind of end.", "anchors": ["src/traverse.rs: Traverse::poll_next"]}
{"id": "C49", "title": "dropping a write in flight is safe", "statement": "If the future of a put or del is dropped before it completes, the core is unchanged and every later operation behaves as if the write had not been issued.", "quantifier": "all states, all operations, all suspension points", "why_tests_cant": "All cancellation points.", "anchors": ["src/put.rs: Tree::put_compare_and_swap", "src/del.rs: Tree::del_compare_and_swap"]}
{"id": "C50", "title": "height reports the number of levels", "statement": "height() is 0 without a root, and otherwise the common depth of all leaves.", "quantifier": "all reachable states", "why_tests_cant": "All trees.", "anchors": ["src/tree.rs: Tree::height", "src/lib.rs: Node::height"]}
{"id": "C51", "title": "keys sharing bytes with a prefix are still found", "statement": "Sub-database traversal bounds and stripping never remove or add bytes of the user's own key: a key written as k through sub(p) is yielded as k by every sub(p) traversal that yields it, whatever bytes it contains.", "quantifier": "all prefixes, separators and keys (including the empty key and keys that contain the separator)", "why_tests_cant": "All byte strings.", "anchors": ["src/prefixed.rs: Prefixed::traverse"]}
{"id": "C52", "title": "reads overlapping a write see the old or the new database", "statement": "A get, version request or traversal whose steps are interleaved with those of a put or del on the same database replies as if it had run entirely before or entirely after the write.", "quantifier": "all states, all reads, all writes, all interleavings at await points", "why_tests_cant": "Depends on the schedule: writers mutate cached nodes in place before they append, and readers take the same locks.", "anchors": ["src/put.rs: Tree::put_compare_and_swap", "src/blocks.rs: Blocks::get", "src/tree.rs: Tree::get"]}
{"id": "C53", "title": "overlapping calls never wait for each other for ever", "statement": "Whatever calls overlap on one handle and in whatever order they are polled: as long as every call is polled again and again, each of them returns; no set of calls comes to wait for node locks held or queued for by each other.", "quantifier": "all states, all sets of overlapping calls, all fair schedules", "why_tests_cant": "A deadlock shows only under particular interleavings of lock requests; tests exercise a few schedules, usually on one thread.", "anchors": ["src/traverse.rs: get_n_keys_and_children", "src/del.rs: Side::maybe_merge", "src/lib.rs: wchildren!, Node::get_key_value, Children::get_child", "src/put.rs: put_compare_and_swap"]}
{"id": "C54", "title": "blocks are written in the format of schema.proto", "statement": "Every block ever appended is, byte for byte, what the protobuf encoding of schema.proto prescribes: block 0 a header with protocol \"hyperbee\" and the given metadata; every other block the nodes (field 1, numbers packed, children as block and offset in turn), the key (field 2) and the value if there is one (field 3), with shortest numbers. A put carries its key and value, a deletion its key and no value. The contents determine the bytes and the bytes the contents.", "quantifier": "all histories, keys, values, metadata", "why_tests_cant": "Round-trip tests pass even if writer and reader share a mistake (swapped field numbers, another packing); comparing with the reference implementation checks a few blocks.", "anchors": ["src/schema.proto", "src/blocks.rs: Blocks::add_changes", "src/tree.rs: Tree::create_header", "src/changes.rs"]}
{"id": "C55", "title": "blocks of every conforming writer are understood", "statement": "A block is read as key k, value v and given nodes exactly when the protobuf rules give it that meaning: fields in any order, the last of several counting, lists packed or one by one, numbers of up to ten bytes whether shortest or not, unknown fields and groups skipped, missing fields empty; anything else is refused. No block has two meanings.", "quantifier": "all byte strings", "why_tests_cant": "Tests only read blocks this library or one version of the JavaScript library wrote; the set of admissible encodings is infinite.", "anchors": ["src/schema.proto", "src/blocks.rs: Blocks::get", "src/blocks.rs: make_node_vec"]}
{"id": "C56", "title": "it does not matter who wrote the core", "statement": "Let block 0 hold no nodes, every other block be readable and the newest block be the top of a B-tree of order 8, whatever program wrote them. Then every sequence of calls on the core is answered as by the abstract database whose version is the length and whose contents are the tree's keys with the values in their blocks; and the calls only add blocks in the prescribed format, leaving the top of a B-tree with exactly the resulting keys. A core with only block 0 is an empty database.", "quantifier": "all cores, all sequences of calls", "why_tests_cant": "Every other property starts from an empty core written by this library; tests against foreign cores use a handful of fixtures.", "anchors": ["src/blocks.rs: Blocks::get", "src/tree.rs: Tree::get_root", "src/put.rs: put_compare_and_swap", "src/del.rs: del_compare_and_swap"]}
{"id": "C57", "title": "print shows the tree", "statement": "print() returns one line per key, in key order: as many tabs as the node holding the key is deep, the key, and a newline. It fails exactly when some key is not valid UTF-8, or when nothing was ever written. If no key contains a tab or a newline, the text determines the tree: two databases that print alike have the same nodes with the same keys and children.", "quantifier": "all reachable states, all schedules of polls, all pairs of B-trees", "why_tests_cant": "A test compares the text of one tree; the claim covers trees of every shape, every key, and the absence of a second tree with the same text.", "anchors": ["src/traverse.rs: print", "src/tree.rs: Tree::print", "src/lib.rs: Node::height"]}
{"id": "C58", "title": "which sub-databases are isolated", "statement": "Calls through sub(p) leave every read through sub(q) unchanged, in every state, exactly when neither prefix followed by its separator begins the other prefix followed by its separator. For two prefixes with the same one-byte separator that is: they differ, and neither begins with the other followed by the separator.", "quantifier": "all pairs of prefixes and separators, all states, all calls, all keys", "why_tests_cant": "An equivalence over all pairs of prefixes; the failing side needs a history built from the pair.", "anchors": ["src/prefixed.rs: with_key_prefix!", "src/lib.rs: Hyperbee::sub"]}
{"id": "C59", "title": "exactly what the configuration builder accepts", "statement": "build succeeds exactly when a bound is left out, or both are finite and the lower is below the upper, or equal to it with neither declared exclusive. The ranges accepted though empty are exactly: minimum +infinity alone, maximum -infinity alone, below the empty key alone, and the open interval between a key and the key followed by a zero byte. The ranges refused though not empty are exactly those with both bounds given and one of them the infinite value it has by default.", "quantifier": "all combinations of set and unset fields, all bound values", "why_tests_cant": "Equivalences over all bounds, including that no other range is treated wrongly.", "anchors": ["src/traverse.rs: validate_traverse_config_builder"]}
{"id": "C60", "title": "how numeric limits compare", "statement": "LimitValue::from(n) is the decimal digits of n without leading zeros. The limit of m is below the limit of n exactly when m < n after appending zeros to the one with fewer digits, or they are then equal and m had fewer digits.", "quantifier": "all pairs of numbers", "why_tests_cant": "All pairs of numbers.", "anchors": ["src/traverse.rs: impl From<usize> for LimitValue"]}
{"id": "C61", "title": "exactly what a traversal of a sub-database yields", "statement": "A traversal of sub(p) passes, in order, over the stored keys between its bounds; a bound given is put after prefix and separator; without a lower bound it starts at the prefix, without an upper one it ends after the keys beginning with the prefix, or, if the prefix is empty or ends in 255, after the key equal to the prefix. Each key is yielded without its first bytes, as many as prefix and separator have; the first key with fewer makes it panic, and nothing else does. Where these bounds cross, at most the entry at the lower one is yielded.", "quantifier": "all prefixes, separators, configurations, contents and poll schedules", "why_tests_cant": "Depends on the byte values of prefix and separator and on foreign keys of every kind.", "anchors": ["src/prefixed.rs: Prefixed::traverse, increment_bytes"]}
{"id": "C62", "title": "exactly when a finished stream can be polled again", "statement": "A traversal that has yielded None yields None to every further poll exactly when no key of the top node of the stored tree lies beyond the limit at which it ends (the upper limit, or the lower one when reversed); otherwise every further poll panics.", "quantifier": "all reachable states, configurations the builder accepts, poll schedules, and later states", "why_tests_cant": "Whether the panic occurs depends on the shape of the tree, not on what the traversal yields, so tests on small trees or on lucky bounds see one outcome only.", "anchors": ["src/traverse.rs: Traverse::poll_next", "src/traverse.rs: make_child_key_index_iter"]}
{"id": "C63", "title": "the log is faithful whatever overlaps", "statement": "Whatever calls overlap, on whatever state, in whatever order their steps come and whichever are dropped: the blocks appended are, one for one, those of the calls that returned and by their reply wrote something, each holding the key and the value of its call; and headers, of which there are none unless the core was empty, and at most one for each call.", "quantifier": "all states (also corrupt ones, and cores that fail), all sets of overlapping calls, all interleavings of their steps", "why_tests_cant": "A call that appends a block and is then reported as failed, or a reported write without a block, shows only under particular interleavings and failures, of which there are exponentially many.", "anchors": ["src/changes.rs: Changes", "src/blocks.rs: Blocks::add_changes", "src/tree.rs: Tree::create_header", "src/put.rs: put_compare_and_swap", "src/del.rs: del_compare_and_swap"]}
{"id": "C64", "title": "a returned seq names the block also when calls overlap", "statement": "When calls overlap, the number a put reports is the number of the block that holds its key and value.", "quantifier": "all sets of overlapping calls and all interleavings", "why_tests_cant": "Needs a second write between the moment a put asks for the length and the moment it appends.", "anchors": ["src/put.rs: put_compare_and_swap", "src/blocks.rs: Blocks::add_changes"]}
{"id": "C65", "title": "overlapping first calls leave one header and a working database", "statement": "However first puts and calls of create_header overlap on an empty core, one header is written, as block 0, and the database works afterwards.", "quantifier": "all sets of overlapping calls, all interleavings, all later histories", "why_tests_cant": "Needs two calls to find the core empty before either has appended.", "anchors": ["src/tree.rs: Tree::ensure_header", "src/tree.rs: Tree::create_header", "src/tree.rs: Tree::get_root"]}
{"id": "C66", "title": "a handle of one's own reads snapshots while others write", "statement": "A get, version request or traversal through a handle that nobody writes through meanwhile replies as of the moment of its first step, however the steps of calls through other handles, writing ones too, fall between its own; the handle may have been written through before.", "quantifier": "all sets of calls through any number of handles, all interleavings of their steps, all keys, ranges and poll schedules", "why_tests_cant": "Every placement of a writer's steps between a reader's steps matters, and a traversal can be held open over any number of writes.", "anchors": ["src/blocks.rs: Blocks::get", "src/blocks.rs: SharedCore", "src/tree.rs: Tree::get_root", "src/lib.rs: nearest_node", "src/traverse.rs: Traverse"]}
{"id": "C67", "title": "which calls can block each other for ever", "statement": "If all calls in flight on one handle are polled again and again, then all of them reply, or they come to a standstill that no polling ends and that is due to traversals asking for a second read lock of the same node and to deletions holding one node's child list while asking for another's; gets, puts, conditional puts and header creation are never to blame.", "quantifier": "all states, all sets of calls, all fair orders of polling", "why_tests_cant": "A deadlock shows only under particular orders of lock requests, and that none but these exist is a statement about all orders.", "anchors": ["src/traverse.rs: get_n_keys_and_children", "src/del.rs: maybe_merge", "src/lib.rs: wchildren!", "src/lib.rs: SharedNode", "src/tree.rs: Tree"]}
{"id": "C68", "title": "one writing client among readers has effect as if alone", "statement": "A client that makes calls one after the other (puts, conditional puts, dels, conditional dels, header creations, reads), overlapped by other clients that only read (gets, version requests, traversals on the same handle, one after the other), gets the replies it would have got alone, leaves the same core, and every later history of calls, reopening included, replies the same.", "quantifier": "all reachable states, all histories of the writing client, all numbers of readers and all their histories, all interleavings of their steps", "why_tests_cant": "Readers load blocks into the cache the writer works on; which of their insertions falls between which two of the writer's steps decides, and there are exponentially many placements.", "anchors": ["src/blocks.rs: Blocks::get", "src/put.rs: Tree::put_compare_and_swap", "src/del.rs: Tree::del_compare_and_swap", "src/del.rs: repair", "src/lib.rs: nearest_node"]}
{"id": "C69", "title": "the test suite's own check accepts every tree the library writes", "statement": "check_tree, the consistency check of the test suite, succeeds on every database with a root that any sequence of calls leads to; it never panics on a tree written by the library.", "quantifier": "all reachable states with at least one written entry", "why_tests_cant": "The tests run the check after a few hand-made and randomised histories; that no history makes it fail is a statement about all of them.", "anchors": ["src/test/mod.rs: check_tree", "src/test/mod.rs: check_node", "src/test/mod.rs: is_sorted", "src/test/mod.rs: interleave"]}
{"id": "C70", "title": "the test suite's own check accepts only well formed B-trees", "statement": "If check_tree succeeds on a core, the tree stored there is a well formed B-tree: keys in order as a whole, leaves equally deep, nodes of the right size.", "quantifier": "all cores whose blocks are readable and whose newest block is the top of some finite tree", "why_tests_cant": "It is a statement about what the tests themselves can see; the histories they try never produce the trees the check is blind to.", "anchors": ["src/test/mod.rs: check_tree", "src/test/mod.rs: check_node"]}
{"id": "C71", "title": "a failed read does no harm", "statement": "If reading a block fails during a call (an I/O error, or the block is not there yet), the call either has the reply and effect it would have had, or returns the read error and has no effect: the core is unchanged and every later call through the same handle replies as if it had not been made.", "quantifier": "all reachable states, all calls, all placements of failing reads, whole histories with failures anywhere, all later histories", "why_tests_cant": "The tests run on memory that never fails; a failure can strike at any of the reads of a call, and the damage shows only in some later call.", "anchors": ["src/blocks.rs: Blocks::get", "src/put.rs: Tree::put_compare_and_swap", "src/del.rs: Tree::del_compare_and_swap", "src/del.rs: repair", "src/lib.rs: nearest_node"]}
{"id": "C72", "title": "a traversal that meets unreadable blocks reports every gap and survives", "statement": "When reads fail during a traversal, it yields entries of the listing only, in order and each once; every entry of the listing left out is in a gap that an error item stands for, in its place; a stream that ended without an error has yielded everything; and the stream never panics and ends after enough polls.", "quantifier": "all reachable states, all configurations, all poll schedules, all placements of failing reads", "why_tests_cant": "No test makes a read fail; which entries a stream skips after an error depends on where in the tree the error struck.", "anchors": ["src/traverse.rs: Traverse::poll_next", "src/traverse.rs: make_child_key_index_iter", "src/blocks.rs: Blocks::get"]}
{"id": "C73", "title": "behind a readers-writer lock overlapping calls take effect one after the other", "statement": "Suppose the calls that write (put, del, their compare-and-swap forms, create_header) take a readers-writer lock for writing and all others take it for reading, and no writer is dropped while it has the lock. Then, however the calls are polled and whichever other calls are dropped, the calls that have returned replied as if made one after the other in the order in which they returned; whenever no writer is running, the core and all later replies are as after those calls; and calls that are polled again and again return.", "quantifier": "all reachable states, all finite sets of calls, all schedules of polls and drops, all later histories", "why_tests_cant": "Linearizability is about every interleaving of the awaits of every set of calls; the tests await each call before the next.", "anchors": ["src/hb.rs: Hyperbee::put", "src/hb.rs: Hyperbee::del", "src/hb.rs: Hyperbee::get", "src/hb.rs: Hyperbee::traverse", "src/tree.rs: Tree", "src/blocks.rs: Blocks::get"]}
{"id": "C74", "title": "exactly the blocks the newest tree refers to are needed", "statement": "Removing from the storage, at any time, blocks that hold no node and no key of the newest tree changes nothing: every later call, also through a handle opened anew, returns the same and appends the same blocks. Such a block is never used again. Each block that does hold a node or a key of the newest tree is needed: without it some get through a new handle fails with the missing-block error naming it. A database of n entries uses at least n and at most n + n/4 + 1 blocks, however many were written. A replica that holds the blocks in use answers as if it held all.", "quantifier": "all histories of calls with removals of unused blocks anywhere in between; all blocks; all replicas", "why_tests_cant": "Needs every history and every choice of removed blocks; the tests never remove a block and check no reply against a core with gaps.", "anchors": ["src/blocks.rs: Blocks::get, get_from_core", "src/tree.rs: get_root, put_compare_and_swap, del_compare_and_swap", "src/changes.rs: Changes", "src/traverse.rs"]}
{"id": "C75", "title": "writes and traversals read few blocks, and only as far as they are asked", "statement": "On a tree with h levels a put fetches at most 5h+1 blocks and a deletion at most 19(h-1)+7, in both forms, plain and compare-and-swap. A traversal that has yielded n items, in any interval and direction and polled in any way, has fetched at most 12(h-1)+6+3n blocks; so the first page of a large database costs the logarithm of its size plus the size of the page. A traversal that has not ended has been polled with its read ready at most 16(h-1)+6+4n times, so it ends after a number of polls that depends on the height and the interval alone. With only the fetched blocks at hand the call returns and appends the same.", "quantifier": "all reachable states with a tree, all keys and values, all builders and all schedules of polls", "why_tests_cant": "A bound for every tree, interval and schedule; the tests count no reads and poll streams to the end.", "anchors": ["src/traverse.rs: Traverse::poll_next, make_child_key_index_iter", "src/put.rs: put_compare_and_swap", "src/del.rs: replace_removed_internal_key, repair", "src/blocks.rs: Blocks::get"]}
{"id": "C76", "title": "a write appends few bytes", "statement": "A successful put or deletion on a tree with h levels appends one block no longer than its key plus its value plus 268(2h+1)+33 bytes (the first put appends a ten-byte header before it); nothing else is written. Hence block q of any database is no longer than its key, its value and 536 log5(q) + 837 bytes: the size of a block grows with the logarithm of the number of writes, never with the number of entries. The core is assumed to hold fewer than 2^64 blocks, each shorter than 2^64 bytes. So n effective writes leave behind the header no more than the keys and values written and n times a number of bytes that grows with the logarithm of n.", "quantifier": "all reachable states, all writing calls, all keys and values; all blocks of all databases", "why_tests_cant": "A bound for every tree shape and every key and value; the tests do not look at block sizes.", "anchors": ["src/changes.rs: Changes", "src/blocks.rs: Blocks::add_changes", "src/lib.rs: Node::to_level", "src/schema.proto"]}
{"id": "C77", "title": "a C program that keeps four rules never meets undefined behaviour, and nothing it has given back is kept for it", "statement": "Let a C program call the functions of src/external.rs in any order while the runtime gives the tasks of its gets turns at any time in between. If every pointer it passes was handed out for that purpose and has not been given back (a buffer with the length it came with), no key pointer is null, and a database is closed only when each get on it has called back or panicked or had its runtime closed, then no call and no turn is undefined. The rules on pointers are necessary: a run that breaks one meets undefined behaviour at that call. So is the rule on closing: a get whose database is closed before its last turn makes its next turn undefined, and also the closing of its runtime if it has had a turn. At any time the blocks of memory made for the program are exactly those handed out and not given back (what a closed database leaves behind its box is C87).", "quantifier": "all programs, all directories and contents, all placings of the tasks' turns", "why_tests_cant": "tests/common/c/test.c makes one get, waits for it and closes everything; use after free depends on when the runtime polls a task, and may go unnoticed when it happens.", "anchors": ["src/external.rs: init_runtime, close_runtime, hyperbee_from_storage_directory, close_hyperbee, hb_get, deallocate_rust_string, deallocate_rust_buffer, to_c, from_c, c_vec_from_vec", "tests/common/c/test.c"]}
{"id": "C78", "title": "every C callback is given the right value, once, in memory of its own", "statement": "In every run of a C program that meets no undefined behaviour, with any number of runtimes, databases and overlapping gets: a get calls back at most once; it calls back exactly if a get alone on the directory its database was opened from finds the key with a value, and then with error code 0, an empty message, the number of the block, the value and its length, in memory that holds the value until it is given back; otherwise its task panics. A get whose runtime stays open and gives it turns again and again comes to one of the two.", "quantifier": "all programs without undefined behaviour, all directories and contents, all placings of the tasks' turns", "why_tests_cant": "Overlapping gets share a cache and run on several threads; the test makes one get.", "anchors": ["src/external.rs: hb_get, c_vec_from_vec, hyperbee_from_storage_directory", "src/tree.rs: get", "src/blocks.rs: get"]}
{"id": "C79", "title": "a handle can be formatted for debugging at any time", "statement": "Formatting a handle with {:?} never panics, whatever calls are in flight on it, and shows the nodes of the tree as they are stored.", "quantifier": "all states, all sets of calls in flight, all orders of polling; all nodes of the newest tree of all reachable states", "why_tests_cant": "Panics only while a writer waits for a node lock, which depends on the schedule; tests format idle handles, if at all.", "anchors": ["src/blocks.rs: impl Debug for BlockEntry", "src/lib.rs: impl Debug for Node, impl Debug for Children", "src/hb.rs: Hyperbee (derive Debug)"]}
{"id": "C80", "title": "reads through a replica are right while it replicates", "statement": "Let the owner write, a replica learn of greater lengths, its blocks arrive and disappear, single reads fail, and reading calls run through the replica's one handle, all interleaved between any two steps of any call. What a reading call replies is what a fresh handle replies on the blocks that were known at some one moment since the call was made, some reads failing; exactly that if no fetch of its own failed. A lookup replies what the owner's writes up to that moment say, or the error of a fetch of its own of a block known then. A traversal goes through that one state: it yields entries of its listing only, in order, nothing is left out before the first error, and without an error nothing is left out at all.", "quantifier": "all histories of the owner, all replicas' lengths and holdings and their changes, all read failures, all reading calls, all interleavings", "why_tests_cant": "Needs the core to grow and blocks to come and go between the awaits of a call; the replication test waits until everything has arrived before it reads.", "anchors": ["src/blocks.rs: Blocks::get, get_from_cache, get_from_core, info", "src/tree.rs: Tree::get, get_root, nearest_node", "src/traverse.rs: Traverse, TreeIter", "src/hb.rs: get, traverse, version"]}
{"id": "C81", "title": "calls through different sub-databases may overlap", "statement": "Calls through sub-databases of one database, and on the database itself, may be in flight at once: each replies what it would have replied had it been alone, every write is kept, and none disturbs what is in another sub-database.", "quantifier": "all states, all sub-databases, all sets of overlapping calls, all interleavings of their steps", "why_tests_cant": "Needs two calls to be interleaved between awaits; the tests of sub-databases await each call before the next.", "anchors": ["src/prefixed.rs: Prefixed::get, put, del, put_compare_and_swap, del_compare_and_swap, traverse", "src/hb.rs: sub (the tree is shared)", "src/put.rs: put_compare_and_swap"]}
{"id": "C82", "title": "a damaged or foreign core cannot crash a writer", "statement": "Whatever the blocks of a core hold, an insertion or a deletion on it returns a result or an error; it does not panic or run forever. On an error nothing is written; otherwise at most one block with the key and the value of the call is appended.", "quantifier": "all cores, all sets of blocks that can be read, all reads made before, all keys, values and compare-and-swap functions", "why_tests_cant": "The tests only write to cores the library wrote itself; the failing cases need blocks with particular references.", "anchors": ["src/put.rs: put_compare_and_swap, propagate_changes_up_tree, Node::split", "src/del.rs: del_compare_and_swap, repair, Side", "src/blocks.rs: add_changes, reorder_nodes, take_children_with_seq", "src/lib.rs: Node::insert, Children::insert, nearest_node"]}
{"id": "C83", "title": "a traversal with a configuration made by hand yields exactly its range", "statement": "Whatever the public fields of a TraverseConfig are set to, without its builder, a traversal with it yields exactly the stored entries in the interval it describes, in the order asked for and without errors, then ends; it changes neither the core nor any later reply.", "quantifier": "all histories of calls and of such traversals, all values of the five fields, all schedules of polls", "why_tests_cant": "The tests only use the builder, which refuses most of these configurations; the failing case needs bounds that are the wrong way round and a key stored exactly at the lower one.", "anchors": ["src/traverse.rs: TraverseConfig, TraverseConfig::in_bounds, make_child_key_index_iter, Traverse::poll_next", "src/hb.rs: Hyperbee::traverse", "src/tree.rs: Tree::traverse"]}
{"id": "C84", "title": "every block is fetched and decoded once", "statement": "However many calls are made on a handle, directly or through sub-databases, one after the other, no block of the core is fetched and decoded more than once, nor one the cache already held; the cache afterwards holds what it held before and what was fetched. When calls overlap, no single call fetches and decodes a block twice, though two of them may both fetch the same one.", "quantifier": "all states of the handle, all contents of the core, all sequences of calls and sub-databases, all schedules of polls", "why_tests_cant": "Nothing the tests look at tells a cached block from one fetched anew, and a second copy of a node only shows when one of the two copies is changed.", "anchors": ["src/blocks.rs: Blocks::get, Blocks::get_from_core, Blocks::get_from_cache", "src/tree.rs: Tree::get_root", "src/node.rs: Node::get_child, Node::get_key_value"]}
{"id": "C85", "title": "calls about one entry end after few steps", "statement": "A get, put or del (plain or compare-and-swap, directly or through a sub-database), polled with nothing in between, has the result it has when awaited after a number of polls linear in the number of levels of the tree (34h+8 for a get, 47h+17 for a put, 174h for a deletion), hence logarithmic in the number of keys; without a tree after thirteen.", "quantifier": "all histories, all keys, values and swap predicates, all sub-databases, cold and warm handles", "why_tests_cant": "The tests only use small trees and look at no bound; a search or a repair that visited all children, or fetched nodes it does not need, would give the same replies.", "anchors": ["src/lib.rs: nearest_node, get_index_of_key", "src/put.rs: Tree::put_compare_and_swap, propagate_changes_up_tree", "src/del.rs: Tree::del_compare_and_swap, repair", "src/blocks.rs: reorder_nodes, Blocks::add_changes"]}
{"id": "C86", "title": "compare-and-swap functions that call the handle or panic", "statement": "The function given to put_compare_and_swap or del_compare_and_swap may itself make calls through the handle, and may panic. It is asked once, about the entry there is (a deletion of a missing key does not ask), its calls are answered as they should be, and the swap is made, if it approves, in the database its calls have left; if it refuses or panics nothing but its own calls has happened and the handle goes on working.", "quantifier": "all histories, keys and values, all functions making any number of calls that depend on the replies", "why_tests_cant": "No test passes a function that does more than compare. The outcome depends on what the function does in the middle of the call, between the search and the change of the nodes found.", "anchors": ["src/put.rs: Tree::put_compare_and_swap", "src/del.rs: Tree::del_compare_and_swap", "src/hb.rs: Hyperbee::put_compare_and_swap, Hyperbee::del_compare_and_swap"]}
{"id": "C87", "title": "dropping the last handle frees what is behind it", "statement": "When a handle to a database is dropped, together with all sub-databases, streams and calls that came from it, everything behind it is freed: the cache, the nodes, and the hypercore with its storage. (False: a node in the cache refers to the Blocks that own the cache. It holds exactly if no block in the cache has a node, and that is so exactly if no call of the handle searched a tree.)", "quantifier": "all databases, all histories of calls through a handle opened on one", "why_tests_cant": "A test cannot see that memory is not given back or that files stay open, and the process ends right after it.", "anchors": ["src/blocks.rs: Blocks, BlockEntry, Blocks::get, make_node_vec", "src/lib.rs: Shared, Node, Children", "src/tree.rs: Tree, TreeBuilder", "src/hb.rs: Hyperbee"]}
{"id": "C88", "title": "what is stored depends on the writes alone", "statement": "Two histories leave byte for byte the same core exactly if they began with the same header and made the same effective writes in the same order. Lookups, traversals, refused swaps, deletions of nothing, closing and reopening, the number of handles and what each has cached leave no trace in later blocks, and a swap that is made writes what a plain write would. So every database can be made again byte for byte by repeating its writes.", "quantifier": "all pairs of histories, through one handle or several", "why_tests_cant": "It compares pairs of histories of any length; the order of the nodes in a block, and so its bytes, could depend on what was in memory when it was written.", "anchors": ["src/blocks.rs: Blocks::add_changes, reorder_nodes", "src/put.rs: Tree::put_compare_and_swap", "src/del.rs: Tree::del_compare_and_swap", "src/tree.rs: Tree::get_root, Tree::create_header"]}
{"id": "C89", "title": "machine integers are exact", "statement": "The code computes indices and lengths in usize and converts u64 offsets to usize. On a target whose usize has w bits (at least 4), in builds with overflow checks and without, as long as no vector of keys, children or nodes has 2^(w-3) elements (memory allows no more) and the core is smaller than that, no sum, difference, product or conversion of a call overflows or loses bits: every history of calls gives the replies, the blocks and the memory it would give with numbers without end, and so do overlapping reads in any order of their steps, and any overlapping calls none of which panics. The same holds for histories of calls through sub-databases and on the database itself, if the keys with the prefix before them have fewer than 2^(w-1) bytes. The conditions are needed: with three bits a traversal of four keys fails, with four bits a prefixed key of eight bytes is too long, and a core this library did not write can make a 32 bit target return an error where a 64 bit target panics.", "quantifier": "all machines, build kinds, histories, sub-databases, reachable states, schedules of overlapping calls", "why_tests_cant": "Tests run on one target, with overflow checks on, and with small nodes; whether an index can go below zero or beyond the end of the type in a release build, where it would silently wrap, depends on every path through search, split, rotation, merge and traversal.", "anchors": ["src/lib.rs: get_index_of_key, Children::insert", "src/put.rs: Tree::put_compare_and_swap", "src/del.rs: Side, repair", "src/traverse.rs: make_child_key_index_iter", "src/blocks.rs: reorder_nodes, BlockEntry::get_tree_node", "src/tree.rs: Tree::get_root", "src/prefixed.rs: increment_bytes, with_key_prefix!, Prefixed::traverse"]}
{"id": "C90", "title": "an append that fails is all or nothing", "statement": "Appending a block may fail in any step of any call, before the block was stored or after (the error is returned though the block is in the core). A call in which it does returns the core's error and nothing else. If the block was stored, the handle is in the very state it would be in had the call succeeded, or, if the block was the header written by the first put, in the state after create_header: all calls that follow, through the same handle, reply as if it had. For a client that opens the database anew after each such error, whatever fails in whichever way, every call has had its whole effect, or none, or was the first put and has only created the header; a failed call never takes effect later, and all calls that succeed reply accordingly.", "quantifier": "all histories of calls with any pattern of failing appends, all reachable states", "why_tests_cant": "A failure has to be injected in each append of each history, in both ways, and what the handle's memory holds afterwards shows only in later calls.", "anchors": ["src/blocks.rs: Blocks::append, Blocks::add_changes", "src/tree.rs: Tree::create_header, Tree::ensure_header", "src/put.rs: Tree::put_compare_and_swap", "src/del.rs: Tree::del_compare_and_swap"]}
{"id": "C91", "title": "writes made at the same time through different handles all take effect", "statement": "Let calls overlap through different handles on one core, each handle having its own cache and nodes. Every write that returns takes effect, and the calls reply as if they had been made one after the other in some order.", "quantifier": "all worlds, all sets of calls through any handles, all interleavings of their steps", "why_tests_cant": "Tests await each call before the next; what goes wrong depends on the order of single steps, and shows only in later calls.", "anchors": ["src/put.rs: Tree::put_compare_and_swap", "src/del.rs: Tree::del_compare_and_swap", "src/tree.rs: Tree::get_root, Tree::version", "src/blocks.rs: Blocks, Blocks::add_changes"]}
{"id": "C92", "title": "versions share what did not change", "statement": "Version n of a database is the tree whose top is in block n-1. Any node of a version that was written before an earlier version belongs to that earlier version as well, so a version differs from an earlier one only in the nodes written since, and the versions a node belongs to are an uninterrupted run beginning with the one it was written for: a node once dropped is never taken up again. Nothing is written in vain: every node of every block belongs to the version the block was written for. A write drops at most twice as many nodes as it writes, and one. Within a version no node is the child of two nodes or twice the child of one.", "quantifier": "all reachable states, all pairs of versions, all nodes", "why_tests_cant": "The tests compare contents; a write that copied subtrees it did not change, linked to a node of an older tree, or stored nodes nobody refers to would give the same answers. Which nodes two versions have in common depends on the whole history of splits, rotations and merges between them.", "anchors": ["src/put.rs: Tree::put_compare_and_swap", "src/put.rs: propagate_changes_up_tree", "src/del.rs: del_compare_and_swap, repair", "src/changes.rs", "src/blocks.rs: add_changes, reorder_nodes"]}
{"id": "C93", "title": "whoever opens anew after every failure is never wrong", "statement": "Whatever goes wrong, in whichever mixture and however often — reads that fail or find no block, appends that fail before or after the block was stored, futures dropped half way — a client that opens the database anew after every call that was dropped or returned an error sees each call either do what it does, or fail without any effect, or take full effect with the error of the append returned, or (the first put of an empty database only) create nothing but the header; a traversal yields right entries in their places with an error in the place of each gap, or panics after an item that said where to begin in a node could not be read. All later calls answer as on a database on which just that happened. In particular a put that was seen to succeed stays until the next call about its key. The same holds for several clients that take turns, each with a handle of its own, which it opens anew after each of its own calls that failed.", "quantifier": "all histories before, all sequences of calls through any number of handles, all troubles at all steps of each call, all calls afterwards through any of them", "why_tests_cant": "Tests use memory storage that does not fail; the combinations of failing steps over several calls cannot be enumerated.", "anchors": ["src/blocks.rs:66-107", "src/hb.rs:45-187", "src/put.rs", "src/del.rs", "src/traverse.rs", "src/tree.rs"]}
{"id": "C94", "title": "a range can be read page by page while the database changes", "statement": "A client reads a range, forwards or backwards, in pages: it polls a traversal for a while, drops it, and begins the next one behind the last key it has seen, by setting the bound of the builder to that key, exclusive. Between pages anything may be written. No page fails (unless the database is empty or there can be nothing behind the last key, when the configuration is refused); what a page yields is in the range and in the database when the page is read; over all pages the keys come strictly in order, so no key comes twice; and once a page says that there is nothing more, every key of the range that was there when each of the pages was read has come.", "quantifier": "all histories before and between pages, all accepted builders, all numbers of pages, all polling schedules of each", "why_tests_cant": "No test reads a second page, and none writes between traversals; the combinations of bounds, directions, stops and writes are unbounded.", "anchors": ["src/traverse.rs:59-139", "src/traverse.rs:141-238", "src/hb.rs:133-138"]}
{"id": "C95", "title": "sub-databases when things go wrong", "statement": "Several clients take turns, each with a handle of its own that it opens anew after each of its calls that failed, and call the database itself or any of its sub-databases, while reads fail, appends fail and futures are dropped. Every call but a traversal of a sub-database is as on the database itself with prefix and separator before the key: it did what it does, or failed without effect, or took effect with the error of the append returned, or created the header. A traversal of a sub-database changes nothing; its items account, in order, for the entries it passes over, with keys cut, and an error in the place of each gap if a read failed; or it was dropped or could not read the root; or it panics at a key too short to be cut, or after a place to begin could not be read. What is stored under a key, in whichever sub-database, stays until a call about that very key.", "quantifier": "all histories before, all sequences of calls through any handles and sub-databases with bounds that do not cross, all troubles at all steps of each call, all calls afterwards", "why_tests_cant": "Tests use memory storage that does not fail, and one sub-database at a time; failing steps in the middle of a call through one sub-database while another is watched are not among them.", "anchors": ["src/prefixed.rs:58-176", "src/hb.rs:128-131", "src/traverse.rs", "src/blocks.rs:66-107"]}
{"id": "C96", "title": "the log is faithful whatever overlaps and whatever fails", "statement": "Calls through any handles and sub-databases overlap, on whatever state, their steps in whatever order; any reads fail, any appends fail before or after the block was stored, any calls are dropped. The blocks appended are, one for one: those of the calls that returned and by their reply wrote something; those, at most one each, of calls that returned the core's error after an append of theirs had failed though the block was stored; and headers, none unless the core was empty and at most one for each call. Each block has the key, with prefix and separator, and the value of its call; the number a put reports is not beyond that of its block.", "quantifier": "all states, all lists of calls with their handles and sub-databases, all schedules with all troubles at all steps", "why_tests_cant": "Overlap and failure at once need control over the order of steps and over storage; tests have neither, and the combinations cannot be listed.", "anchors": ["src/blocks.rs:53-107", "src/put.rs", "src/del.rs", "src/tree.rs", "src/prefixed.rs:58-176"]}
{"id": "C97", "title": "nothing is reported that was not written, whatever overlaps and whatever fails", "statement": "Calls through any handles and sub-databases overlap, beginning with an empty core, while any reads and appends fail and calls are dropped. The block that a get or an item of a traversal names is the block of a write, never a header; its value is what is reported; for a traversal its key is the one reported (with prefix and separator cut off for a sub-database) and is in the range asked for.", "quantifier": "all lists of calls with their handles and sub-databases, all schedules with all troubles at all steps", "why_tests_cant": "Readers can be led astray by nodes that are changed under them (C52); that even then no entry is invented or mixed up is a statement about all orders of steps and all failures.", "anchors": ["src/blocks.rs:53-107", "src/lib.rs:225-260", "src/traverse.rs", "src/prefixed.rs:134-176"]}
{"id": "C98", "title": "failures and dropped futures add no standstill; giving up on traversals and deletions ends all", "statement": "Calls on the database itself and through sub-databases are in flight on one tree with the locks of its nodes, any reads and appends fail, and any futures are dropped. If every call is polled again and again, all reply except those that were dropped, or there is a standstill whose culprits are the same as without failures: traversals asking for a second read lock of a node they have locked, and deletions that hold one list of children and ask for another that a culprit has locked. If every traversal and every deletion is dropped at some time unless it replied before, all other calls reply.", "quantifier": "all states, all lists of calls with sub-databases, all infinite schedules that poll each call again and again, all troubles at all polls", "why_tests_cant": "Whether a lock is left behind on an error path or by a cancelled future is a statement about every step of every call at which something can go wrong, and about all infinite schedules.", "anchors": ["src/lib.rs:225-260", "src/traverse.rs:120-260", "src/del.rs", "src/blocks.rs:76-107", "src/prefixed.rs:58-176"]}
{"id": "C99", "title": "wherever a stream stands, it yields its next item or ends after few polls, each of few steps", "statement": "Let the tree have h levels. A stream with any configuration, built by the builder or made by hand, on the database or on a sub-database, that has already been polled in any way, yields an item or ends within 8h - 2 further polls that find their future ready, and each item after that within 8h - 5 more; h is logarithmic in the number of keys. It never nests more than h streams. Making the stream takes at most 4 steps, and each poll at most 29 steps, however many entries are stored and wherever the stream stands.", "quantifier": "all reachable states, all configurations, all sub-databases, all schedules before and after the point considered", "why_tests_cant": "Tests collect streams to the end; the worst gap between two items depends on where the stream stands in the tree, on bounds that exclude what it descends into, and on the schedule of polls.", "anchors": ["src/traverse.rs:120-290", "src/tree.rs:140-165", "src/prefixed.rs:120-176"]}
{"id": "C100", "title": "reading page by page comes to an end", "statement": "A client reads a range page by page, each page from behind the last key seen, while any calls are made between pages; there is a tree, and no bound was given as an infinity. If each page is polled 8 (log5(version) + 1) times with its future ready, each page yields an entry or says that there is nothing more; so with more pages than keys ever seen in the range some page says so. If nothing in the range changes meanwhile, whatever is written elsewhere, the pages together are exactly what one traversal read to its end yields.", "quantifier": "all histories before, all builders without explicit infinities, all calls between pages, all schedules with so many ready polls", "why_tests_cant": "That every page makes progress needs the worst number of polls before an item, over all trees and all places in them, and all changes of the tree between pages.", "anchors": ["src/traverse.rs:97-290", "src/hb.rs:131-140", "src/tree.rs:140-165"]}
{"id": "C101", "title": "calls about one entry end soon also when things go wrong", "statement": "Whatever goes wrong with a step of a get, put or del (a block cannot be read, or an append fails), in whatever state, either has nothing to do with that step or ends the call at once with an error; nothing is retried. After any history of several clients who open the database anew after a failure or a dropped future, such a call polled 174 (log5(version) + 1) times has its reply, whatever goes wrong with any of its steps.", "quantifier": "all states and steps; all histories with anything going wrong in them, all handles, all calls about one entry, directly or through sub-databases, all lists of faults", "why_tests_cant": "Every step of every call can fail in several ways, at every size and shape of tree; a call that hangs or retries forever in one of these cases would not show unless that fault was injected there.", "anchors": ["src/blocks.rs: Blocks::get_from_core, Blocks::append", "src/lib.rs: nearest_node, get_index_of_key", "src/put.rs: Tree::put_compare_and_swap", "src/del.rs: Tree::del_compare_and_swap, repair", "src/prefixed.rs:69-132"]}
{"id": "C102", "title": "height and print do not disturb and are not disturbed, and fail cleanly", "statement": "Calls of height and print (the debug feature), gets, version requests and traversals on one handle, taking their steps in any order, each return what they would have returned alone, whatever the core holds; finished or dropped half way they leave no trace for later calls. When block reads fail, height and print return what they return when no read fails, or the error of a failed read: never a wrong height, never part of the text, no panic; the core is as before and later calls reply as if they had not been made.", "quantifier": "all states of a handle (for the first part even with damaged cores), all lists of reading calls, all schedules; all reachable states, all lists of failing reads, all later calls", "why_tests_cant": "print drives a stream and walks to a leaf for every key while others fill the same cache; the schedules and the places where a read can fail are unbounded in number.", "anchors": ["src/lib.rs:203-218", "src/tree.rs:74-85, 137-146", "src/hb.rs:60-70", "src/traverse.rs:450-469", "src/blocks.rs: Blocks::get"]}
{"id": "C103", "title": "height and print through a handle of one's own show snapshots while others write", "statement": "Calls of any kind through any handles on one core overlap in any way. height or print through a handle that nobody writes through meanwhile shows the tree as it was stored at the moment of the call's first step (height: the common depth of its leaves; print: its outline, or the error that some key is not text), whatever is written and however the tree changes while the call walks through it; before the first write, 0 and the error that there is no root.", "quantifier": "all histories that lead to the handle and the core, all lists of calls through any handles, all schedules of their steps", "why_tests_cant": "print walks the whole tree and once more down to a leaf for every key while other handles append blocks; schedules and trees are unbounded in number.", "anchors": ["src/lib.rs:203-218", "src/tree.rs:52-85, 137-146", "src/traverse.rs:450-469", "src/blocks.rs:53-92"]}
{"id": "C104", "title": "a sub-database can be read page by page", "statement": "A client reads a range of a sub-database in pages, forwards or backwards, each page from behind the last key seen as the sub-database names it, while anything is written between pages, on the database or through any sub-databases. No page fails (unless the database is empty or there can be nothing behind the last key); what a page yields is in the range and in the sub-database when the page is read; over all pages the keys come strictly in order, so none comes twice; once a page says that there is nothing more, every key of the range that the sub-database held when each page was read has come; and with pages polled often enough, and more of them than keys ever in the range, some page says so; if meanwhile nothing of the sub-database in the range changes, the pages together are exactly what get on it finds there.", "quantifier": "all prefixes and separators, all histories before and between pages on the database and through sub-databases, all accepted builders, all numbers of pages, all polling schedules", "why_tests_cant": "No test traverses a sub-database twice; where an open bound lets another sub-database's key through, its wrongly cut key sends the reader back, and whether that happens depends on names and contents without bound.", "anchors": ["src/prefixed.rs:130-177", "src/prefixed.rs:179-195", "src/traverse.rs:97-238"]}
{"id": "C105", "title": "a sub-database traversal with any configuration yields its interval", "statement": "Prefixed::traverse takes a TraverseConfig whose fields are public. Whatever configuration it is given, whether or not the builder would make it, the traversal yields exactly the entries of the sub-database whose keys lie in the interval described, each once and in the order asked for, and then ends; and it changes no later reply.", "quantifier": "all configurations, all prefixes and separators, all histories of calls and of such traversals on the database and through sub-databases, all polling schedules", "why_tests_cant": "Tests pass only what the builder makes, and check single results for fixed contents; which entries are let through depends on bounds, direction, prefix, separator and every other key stored.", "anchors": ["src/prefixed.rs:130-177", "src/prefixed.rs:179-195", "src/traverse.rs:97-238"]}
{"id": "C106", "title": "all of a sub-database can be read by one traversal", "statement": "For a sub-database there is a configuration (for instance the default one, without bounds) with which a traversal yields, whatever is stored in the database, every entry of the sub-database under the key the sub-database knows it by, each once and in order, and nothing else, and then ends.", "quantifier": "all prefixes and separators, all configurations, all contents of the database written through it and through any sub-databases, all polling schedules with enough ready polls", "why_tests_cant": "It speaks of all configurations and all contents at once: that none works for the default separator needs for each configuration its own contents on which it fails.", "anchors": ["src/prefixed.rs:130-177", "src/prefixed.rs:179-195", "src/prefixed.rs:15-56"]}
{"id": "C107", "title": "a failed read in one sub-database does no harm to it or to any other", "statement": "If reading a block fails during a call through a sub-database or on the database, the call either has the reply and effect it would have had, or returns the read error and has no effect: the core is unchanged, and every later call, on the database or through any sub-database, replies as if it had not been made. A history in which reads fail is, without the calls that returned such errors, a history in which none does.", "quantifier": "all prefixes and separators, all states reached by calls on the database and through sub-databases, all calls, all placements of failing reads, whole histories with failures anywhere, all later histories", "why_tests_cant": "The tests of sub-databases run on memory that never fails. All sub-databases share one tree and its cached nodes, so what a failed call leaves behind shows in a later call through another sub-database.", "anchors": ["src/prefixed.rs:58-176", "src/hb.rs:128-131", "src/blocks.rs:76-88", "src/del.rs: Tree::del_compare_and_swap"]}
{"id": "C108", "title": "a traversal of a sub-database in which reads fail accounts for every entry", "statement": "Reads of blocks fail as they please during a traversal of a sub-database. Either it cannot be created and says so, or its items account for exactly what get on the sub-database finds in the range: each entry is yielded in its place under the key the sub-database knows it by, or an error in its place stands for it and its neighbours, or it is still to come, and none is once the stream has ended; enough polls bring the stream to its end, and it never panics. The entries that come are the sub-database's, in the order asked for, each at most once.", "quantifier": "all prefixes and separators, all histories on the database and through sub-databases, all accepted builders, all polling schedules, all placements of failing reads", "why_tests_cant": "The tests of sub-databases run on memory that never fails; which items a failure replaces depends on the shape of the tree, the bounds made from the prefix, and the step that fails.", "anchors": ["src/prefixed.rs:130-177", "src/traverse.rs:311-448", "src/blocks.rs:76-88"]}
{"id": "C109", "title": "reading page by page while reads fail misses nothing in the end", "statement": "A range is read page by page, each page from behind the last key seen, while reads of blocks fail as they please and other calls are made between pages. No page yields anything that is not in the range and in the database; over all pages keys come in the order asked for and none twice; and once a page ends without an error, every key of the range that was there when each page was read has come.", "quantifier": "all histories, all accepted builders, all sequences of pages with all polling schedules, all placements of failing reads in them and all calls between them", "why_tests_cant": "A stream goes on behind an error item, so which entries are lost depends on where in the tree the read failed and how often the stream was polled afterwards; no test makes a read fail.", "anchors": ["src/traverse.rs:97-139", "src/traverse.rs:311-448", "src/hb.rs:133-138", "src/blocks.rs:76-88"]}
