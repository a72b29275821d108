import Verif.Model.Session
/-!
# Compare-and-swap functions that do things

`put_compare_and_swap` and `del_compare_and_swap` take any `FnOnce` closure.  `Model/Put.lean` and
`Model/Del.lean` take it for a function of its arguments.  But a closure may own a clone of the
handle and block on calls through it, and it may panic.  (The outer call holds no lock then except
the handle's own, for reading, which nothing takes for writing: the guards of src/put.rs:110 and
src/del.rs:432 are dropped at the end of their statements.)
-/

namespace Hyperbee

/-- What a closure does, given what it has been told. -/
inductive Script where
  /-- return -/
  | answer (b : Bool)
  /-- panic -/
  | panics
  /-- make a call through the same handle, then go on -/
  | call (c : Cmd) (k : Reply → Script)

/-- Run a closure.  The panic of a call in it goes through it.  (`reopen` makes no sense here: a
closure cannot drop the handle of the call it is in.) -/
def Script.run : Script → M Bool
  | .answer b => pure b
  | .panics => throw (.panic "the closure")
  | .call c k => fun s =>
    match exec c s with
    | (.error (.panic m), s') => (.error (.panic m), s')
    | (r, s') => (k r).run s'

/-- `Tree::put_compare_and_swap`, src/put.rs:74-188, up to `add_changes`. -/
def putPrepareBy (key : Bytes) (value : Option Bytes)
    (cas : Option KeyValueData → KeyValueData → Script) :
    M (Prepared (Option Nat × Option Nat)) := do
  let maybeRoot ← getRoot true
  let seq ← version
  let changes := Changes.new seq key value
  let newKeyData : KeyValueData := ⟨seq, key, value⟩
  match maybeRoot with
  | none => do
    let ok ← (cas none newKeyData).run
    if ok = false then pure (.done (none, none))
    else do
      let ch ← putLoop false [] changes seq []
      pure (.commit ch (none, some seq))
  | some root => do
    let (matched, path) ← nearestNode root (.finite key)
    let oldKeyData ←
      if matched.isSome then do
        let (node, index) ← orPanic "put.rs:109 path[path.len() - 1]" path.head?
        let kv ← getKeyValue node index
        pure (some kv)
      else pure none
    let ok ← (cas oldKeyData newKeyData).run
    if ok = false then pure (.done (matched, none))
    else do
      let ch ← putLoop matched.isSome path changes seq []
      pure (.commit ch (matched, some seq))

/-- `Tree::put_compare_and_swap`, src/put.rs:74-188; `Hyperbee::put_compare_and_swap`,
src/hb.rs:95-106. -/
def putCompareAndSwapBy (key : Bytes) (value : Option Bytes)
    (cas : Option KeyValueData → KeyValueData → Script) : M (Option Nat × Option Nat) := do
  let p ← putPrepareBy key value cas
  commitPrepared p

/-- `Tree::del_compare_and_swap`, src/del.rs:412-477, up to `add_changes`. -/
def delPrepareBy (key : Bytes) (cas : KeyValueData → Script) :
    M (Prepared (Option (Bool × Nat))) := do
  match ← getRoot false with
  | none => pure (.done none)
  | some root => do
    let (matched, path) ← nearestNode root (.finite key)
    match matched with
    | none => pure (.done none)
    | some seq => do
      let (node, index) ← orPanic "del.rs:430 path[len - 1]" path.head?
      let kv ← getKeyValue node index
      let ok ← (cas kv).run
      if ok = false then pure (.done (some (false, seq)))
      else do
        let ch ← delChanges key path
        pure (.commit ch (some (true, seq)))

/-- `Tree::del_compare_and_swap`, src/del.rs:412-477; `Hyperbee::del_compare_and_swap`,
src/hb.rs:119-125. -/
def delCompareAndSwapBy (key : Bytes) (cas : KeyValueData → Script) : M (Option (Bool × Nat)) := do
  let p ← delPrepareBy key cas
  commitPrepared p

/-- The calls, as `exec` makes them. -/
def execPutBy (key : Bytes) (value : Option Bytes) (cas : Option KeyValueData → KeyValueData → Script)
    (s : St) : Reply × St :=
  replyOf (putCompareAndSwapBy key value cas) (fun r => .putCas r.1 r.2) s

def execDelBy (key : Bytes) (cas : KeyValueData → Script) (s : St) : Reply × St :=
  replyOf (delCompareAndSwapBy key cas) .delCas s

end Hyperbee
