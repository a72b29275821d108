import Verif.Model.Del
/-!
# Traversal: configuration, validation, and the `Stream` state machine
-/

namespace Hyperbee

/-- `struct TraverseConfig`, src/traverse.rs:100-116 (its fields are public). -/
structure TraverseConfig where
  minValue : LimitValue
  minInclusive : Bool
  maxValue : LimitValue
  maxInclusive : Bool
  reversed : Bool
deriving DecidableEq, Repr

/-- `impl Default for TraverseConfig`, src/traverse.rs:118-128. -/
def TraverseConfig.default : TraverseConfig :=
  ⟨.infinite .negative, true, .infinite .positive, true, false⟩

/-- `TraverseConfigBuilder`, generated by `derive_builder` from src/traverse.rs:97-116: each field
may or may not have been set. -/
structure TraverseConfigBuilder where
  minValue : Option LimitValue := none
  minInclusive : Option Bool := none
  maxValue : Option LimitValue := none
  maxInclusive : Option Bool := none
  reversed : Option Bool := none
deriving DecidableEq, Repr

/-- `validate_traverse_config_builder`, src/traverse.rs:59-95: `true` is `Ok(())`.  The arms are
tried in the order of the code. -/
def validateBuilder (b : TraverseConfigBuilder) : Bool :=
  match b.minValue, b.maxValue with
  | some min, some max =>
    match min, max with
    | _, .infinite .negative => false
    | .infinite .positive, _ => false
    | .finite min, .finite max =>
      if bcmp max min = .lt then false
      else if min = max then
        match b.minInclusive, b.maxInclusive with
        | some false, _ => false
        | _, some false => false
        | _, _ => true
      else true
    | _, _ => false
  | _, _ => true

/-- `TraverseConfigBuilder::build`: validate, then fill in the defaults of src/traverse.rs:101-115. -/
def TraverseConfigBuilder.build (b : TraverseConfigBuilder) : Except Err TraverseConfig :=
  if validateBuilder b then
    .ok ⟨b.minValue.getD (.infinite .negative), b.minInclusive.getD true,
         b.maxValue.getD (.infinite .positive), b.maxInclusive.getD true, b.reversed.getD false⟩
  else .error .traverseConfigBuilder

/-- `TraverseConfig::in_bounds`, src/traverse.rs:219-238. -/
def TraverseConfig.inBounds (c : TraverseConfig) (value : Bytes) : Bool :=
  match c.minValue.cmp value with
  | .gt => false
  | .eq => c.minInclusive
  | .lt =>
    match c.maxValue.cmp value with
    | .gt => true
    | .eq => c.maxInclusive
    | .lt => false

/-- `(start..stop).step_by(step)` collected; `fuel` bounds the length. -/
def rangeStepF (stop step : Nat) : Nat → Nat → List Nat
  | 0, _ => []
  | fuel + 1, start =>
    if start < stop then start :: rangeStepF stop step fuel (start + step) else []

def rangeStep (start stop step : Nat) : List Nat := rangeStepF stop step (stop - start) start

/-- `make_child_key_index_iter`, src/traverse.rs:141-216: the indices the iterator yields. -/
def makeChildKeyIndexIter (conf : TraverseConfig) (node : Addr) (nKeys nChildren : Nat) :
    M (List Nat) := do
  let leaf := nChildren == 0
  let stepBy := if leaf then 2 else 1
  let (startingKey, inclusive) :=
    if conf.reversed then (conf.maxValue, conf.maxInclusive)
    else (conf.minValue, conf.minInclusive)
  let (matched, index) ← getIndexOfKey node startingKey
  -- `none` is the early `return Ok(Box::new(0..0))` of src/traverse.rs:171
  let start : Option Nat :=
    if matched.isSome then
      let keyIndex := index * 2 + 1
      if inclusive then some keyIndex
      else if !conf.reversed then some (keyIndex + stepBy)
      else if keyIndex = 1 ∧ stepBy = 2 then none
      else some (keyIndex - stepBy)
    else
      let childIndex := index * 2
      if !leaf then some childIndex
      else if !conf.reversed then some (childIndex + 1)
      else if childIndex = 0 then some 0
      else some (childIndex - 1)
  match start with
  | none => pure []
  | some start =>
    let (start, stop) :=
      if !conf.reversed then (start, nKeys * 2 + 1)
      else if leaf then (1, start + 1)
      else (0, start + 1)
    let iter := rangeStep start stop stepBy
    pure (if conf.reversed then iter.reverse else iter)

/-- `TreeItem`, src/traverse.rs:21: a `KeyDataResult` and the node it came from. -/
abbrev TreeItem := Except Err KeyValueData × Addr

/-- `struct Traverse`, src/traverse.rs:245-269, without `child_stream`: the chain of nested child
streams is kept as a list, outermost first.  A boxed future is represented by what it will compute
(the index it was created with) and, where the code can poll it again after completion, by whether
it has completed. -/
structure Frame where
  config : TraverseConfig
  root : Addr
  /-- `n_keys_and_children_fut` is `Some` -/
  nkcFut : Bool
  /-- `n_keys_and_children` -/
  nkc : Option (Nat × Nat)
  /-- `iter_fut`: `some completed` -/
  iterFut : Option Bool
  /-- `iter`: what is left of the index iterator -/
  iter : Option (List Nat)
  /-- `next_key`: `some (index, completed)` -/
  nextKey : Option (Nat × Bool)
  /-- `next_child`: `some index` -/
  nextChild : Option Nat
deriving DecidableEq, Repr

/-- `Traverse::new`, src/traverse.rs:274-286. -/
def Frame.new (a : Addr) (config : TraverseConfig) : Frame :=
  ⟨config, a, false, none, none, none, none, none⟩

/-- The result of `poll_next`.  `woken` records whether the code called `wake_by_ref` on this
poll, `waiting` whether an inner future returned `Pending` (and so registered the waker). -/
inductive PollR where
  | pending (woken waiting : Bool)
  | ready (item : Option TreeItem) (woken : Bool)

/-- Run a future to its `Result`; panics are not results. -/
def tryResult (m : M α) : M (Except Err α) := fun s =>
  match m s with
  | (.ok a, s') => (.ok (.ok a), s')
  | (.error (.panic site), s') => (.error (.panic site), s')
  | (.error .diverge, s') => (.error .diverge, s')
  | (.error e, s') => (.ok (.error e), s')

/-- The end of `Traverse::poll_next` for a node without a child stream, src/traverse.rs:366-446:
find the number of keys and children, build the index iterator, or advance it.  (`nkc` is a future
too, but it only takes uncontended locks and cannot fail.) -/
def pollSetup (ready : Bool) (f : Frame) : M (PollR × List Frame) :=
  match f.nkc with
  | none =>
    if f.nkcFut = false then pure (.pending true false, [{ f with nkcFut := true }])
    else if ready = false then pure (.pending true true, [f])
    else do
      let n ← readNode f.root
      pure (.pending true false, [{ f with nkc := some (n.keys.length, n.children.length) }])
  | some (nKeys, nChildren) =>
    match f.iter with
    | none =>
      match f.iterFut with
      | none => pure (.pending true false, [{ f with iterFut := some false }])
      | some true => throw (.panic "traverse.rs:402 `async fn` resumed after completion")
      | some false =>
        if ready = false then pure (.pending true true, [f])
        else do
          match ← tryResult (makeChildKeyIndexIter f.config f.root nKeys nChildren) with
          | .ok iter =>
            pure (.pending true false, [{ f with iter := some iter, iterFut := some true }])
          | .error e =>
            pure (.ready (some (.error (.buildIteratorInTraverse e), f.root)) false,
              [{ f with iterFut := some true }])
    | some [] => pure (.ready none true, [f])
    | some (index :: rest) =>
      if index % 2 = 0 then
        pure (.pending true false, [{ f with iter := some rest, nextChild := some (index >>> 1) }])
      else
        pure (.pending true false,
          [{ f with iter := some rest, nextKey := some (index >>> 1, false) }])

/-- `Traverse::poll_next`, src/traverse.rs:314-447.  `ready` says whether the one future polled by
this call completes now; until then it has no effect. -/
def poll (ready : Bool) : List Frame → M (PollR × List Frame)
  | [] => throw (.panic "no stream")
  | f :: rest =>
    match f.nextKey with
    | some (index, completed) =>
      -- src/traverse.rs:316-330
      if completed then throw (.panic "traverse.rs:317 `async fn` resumed after completion")
      else if ready = false then pure (.pending false true, f :: rest)
      else do
        match ← tryResult (getKeyValue f.root index) with
        | .ok kv =>
          if f.config.inBounds kv.key = false then
            pure (.ready none true, { f with nextKey := some (index, true) } :: rest)
          else
            pure (.ready (some (.ok kv, f.root)) false, { f with nextKey := none } :: rest)
        | .error e =>
          pure (.ready (some (.error e, f.root)) false, { f with nextKey := none } :: rest)
    | none =>
      match f.nextChild with
      | some index =>
        -- src/traverse.rs:333-352
        if ready = false then pure (.pending true true, f :: rest)
        else do
          match ← tryResult (getChild f.root index) with
          | .ok child =>
            pure (.pending true false, { f with nextChild := none } :: [Frame.new child f.config])
          | .error e =>
            pure (.ready (some (.error (.getChildInTraverse e), f.root)) false,
              { f with nextChild := none } :: rest)
      | none =>
        match rest with
        | c :: cs => do
          -- src/traverse.rs:355-364
          let (p, rest') ← poll ready (c :: cs)
          match p with
          | .ready none woken => pure (.pending woken false, [f])
          | .ready (some item) woken => pure (.ready (some item) woken, f :: rest')
          | .pending woken waiting => pure (.pending woken waiting, f :: rest')
        | [] => pollSetup ready f

/-- `Tree::traverse`, src/tree.rs:149-159; `Hyperbee::traverse`, src/hb.rs:133-138. -/
def traverse (conf : TraverseConfig) : M (List Frame) := do
  match ← getRoot false with
  | none => throw .noRoot
  | some root => pure [Frame.new root conf]

/-- Poll a stream once per element of the schedule, collecting what it yields (each item mapped by
`post`), until it ends.  Returns the items and the stream, or `none` once it has ended. -/
def drive (post : Except Err KeyValueData → M β) :
    List Bool → List Frame → M (List β × Option (List Frame))
  | [], fs => pure ([], some fs)
  | r :: rs, fs => do
    let (p, fs') ← poll r fs
    match p with
    | .ready none _ => pure ([], none)
    | .ready (some (res, _)) _ => do
      let x ← post res
      let (xs, fin) ← drive post rs fs'
      pure (x :: xs, fin)
    | .pending _ _ => drive post rs fs'

/-- The stream of `Tree::traverse` drops the node of each item: src/tree.rs:158. -/
def collect (sched : List Bool) (conf : TraverseConfig) :
    M (List (Except Err KeyValueData) × Option (List Frame)) := do
  let fs ← traverse conf
  drive pure sched fs

end Hyperbee
