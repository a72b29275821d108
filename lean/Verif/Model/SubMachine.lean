import Verif.Model.Machine
import Verif.Model.SubAsync
/-!
# Machine integers in calls through sub-databases

As `Model/Machine`, for src/prefixed.rs.
-/

namespace Hyperbee

namespace Machine

/-- `a + b` of bytes -/
def addByte (μ : Machine) (a b : UInt8) : Prog UInt8 :=
  if a.toNat + b.toNat < 2 ^ 8 then Pure.pure (UInt8.ofNat (a.toNat + b.toNat))
  else if μ.checked then Prog.throw (.panic "attempt to add with overflow")
  else Pure.pure (UInt8.ofNat ((a.toNat + b.toNat) % 2 ^ 8))

/-- `concat` of slices of bytes, in all builds: their lengths are added with a check, and no vector has
`2 ^ (w - 1)` bytes. -/
def concat (μ : Machine) (parts : List Bytes) : Prog Bytes :=
  if (parts.map List.length).sum < 2 ^ (μ.width - 1) then Pure.pure parts.flatten
  else Prog.throw (.panic "capacity overflow")

/-- `with_key_prefix!`, src/prefixed.rs:52-56. -/
def withKeyPrefix (μ : Machine) (p : Prefixed) (key : Bytes) : Prog Bytes := μ.concat [p.pre, p.sep, key]

/-- `increment_bytes`, src/prefixed.rs:179-195. -/
def incrementBytes (μ : Machine) (pref : Bytes) : Prog Bytes := do
  if pref.length = 0 then return [0]
  let i ← μ.sub pref.length 1
  match pref[i]? with
  | none => Prog.throw (.panic "prefixed.rs:187 index out of bounds")
  | some last =>
    if last = 255 then Pure.pure (pref ++ [0])
    else
      let b ← μ.addByte last 1
      Pure.pure (pref.set i b)

/-- The bounds `Prefixed::traverse` passes on, src/prefixed.rs:138-163. -/
def boundedConf (μ : Machine) (p : Prefixed) (conf : TraverseConfig) : Prog TraverseConfig := do
  let endOfPrefix ← μ.incrementBytes p.pre
  let (minValue, minInclusive) ← match conf.minValue with
    | .infinite _ => Pure.pure (LimitValue.finite p.pre, true)
    | .finite key => do
      let k ← μ.withKeyPrefix p key
      Pure.pure (LimitValue.finite k, conf.minInclusive)
  let (maxValue, maxInclusive) ← match conf.maxValue with
    | .infinite _ => Pure.pure (LimitValue.finite endOfPrefix, false)
    | .finite key => do
      let k ← μ.withKeyPrefix p key
      Pure.pure (LimitValue.finite k, conf.maxInclusive)
  Pure.pure ⟨minValue, minInclusive, maxValue, maxInclusive, conf.reversed⟩

/-- The closure mapped over the stream, src/prefixed.rs:168-175. -/
def strip (lenDrain : Nat) : Except Err KeyValueData → Prog (Except Err KeyValueData)
  | .error e => Pure.pure (.error e)
  | .ok x =>
    if lenDrain ≤ x.key.length then Pure.pure (.ok { x with key := x.key.drop lenDrain })
    else Prog.throw (.panic "prefixed.rs:171 key.drain(..len_drain)")

/-- `TraverseConfigBuilder::build`, then `Prefixed::traverse` (src/prefixed.rs:134-176), then one
`poll_next` per element of the schedule until the stream ends. -/
def subTraverse (μ : Machine) (p : Prefixed) (b : TraverseConfigBuilder) (sched : List Bool) :
    Prog (List (Except Err KeyValueData) × Bool) :=
  match b.build with
  | .error e => Prog.throw e
  | .ok conf => do
    let conf ← μ.boundedConf p conf
    let fs ← μ.traverse conf
    let lenDrain ← μ.add p.pre.length p.sep.length
    let (xs, fin) ← μ.drive (strip lenDrain) sched fs
    Pure.pure (xs, fin.isNone)

/-- One call through a sub-database, src/prefixed.rs:58-176. -/
def subExec (μ : Machine) (p : Prefixed) : Cmd → Prog Reply
  | .get k => Prog.replyOf .got (μ.withKeyPrefix p k >>= μ.get)
  | .put k v => Prog.replyOf (fun r => .put r.1 r.2) (μ.withKeyPrefix p k >>= fun k => μ.put k v)
  | .putCas k v cas =>
    Prog.replyOf (fun r => .putCas r.1 r.2) (μ.withKeyPrefix p k >>= fun k => μ.putCompareAndSwap k v cas)
  | .del k => Prog.replyOf .del (μ.withKeyPrefix p k >>= μ.del)
  | .delCas k cas => Prog.replyOf .delCas (μ.withKeyPrefix p k >>= fun k => μ.delCompareAndSwap k cas)
  | .traverse b sched => Prog.replyOf (fun r => .items r.1 r.2) (μ.subTraverse p b sched)
  | .version => μ.exec .version
  | .createHeader m => μ.exec (.createHeader m)
  | .reopen => μ.exec .reopen

/-- A call on the database itself (`none`) or through a sub-database. -/
def execVia (μ : Machine) (x : Option Prefixed × Cmd) : Prog Reply :=
  match x.1 with
  | none => μ.exec x.2
  | some p => μ.subExec p x.2

/-- A call polled to its end with nothing in between. -/
def callVia (μ : Machine) (x : Option Prefixed × Cmd) (s : St) : Reply × St :=
  match x.2 with
  | .reopen => Hyperbee.exec .reopen s
  | _ =>
    match (μ.execVia x).run s with
    | (.ok r, s) => (r, s)
    | (.error e, s) => (.error e, s)

/-- One call after the other. -/
def runsVia (μ : Machine) : List (Option Prefixed × Cmd) → St → List Reply × St
  | [], s => ([], s)
  | x :: xs, s => ((μ.callVia x s).1 :: (runsVia μ xs (μ.callVia x s).2).1, (runsVia μ xs (μ.callVia x s).2).2)

end Machine

end Hyperbee
