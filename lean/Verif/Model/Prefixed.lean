import Verif.Model.Traverse
/-!
# `Prefixed`: sub-databases
-/

namespace Hyperbee

/-- `struct Prefixed` with its `PrefixedConfig`, src/prefixed.rs:20-47. -/
structure Prefixed where
  pre : Bytes
  sep : Bytes
deriving DecidableEq, Repr

/-- `DEFAULT_PREFIXED_SEPERATOR`, src/prefixed.rs:16. -/
def defaultSeparator : Bytes := [0]

namespace Prefixed

/-- `with_key_prefix!`, src/prefixed.rs:52-56. -/
def withKeyPrefix (p : Prefixed) (key : Bytes) : Bytes := p.pre ++ p.sep ++ key

/-- `Prefixed::get`, src/prefixed.rs:69-72. -/
def get (p : Prefixed) (key : Bytes) : M (Option (Nat × Option Bytes)) :=
  Hyperbee.get (p.withKeyPrefix key)

/-- `Prefixed::put`, src/prefixed.rs:78-85. -/
def put (p : Prefixed) (key : Bytes) (value : Option Bytes) : M (Option Nat × Nat) :=
  Hyperbee.put (p.withKeyPrefix key) value

/-- `Prefixed::put_compare_and_swap`, src/prefixed.rs:91-103. -/
def putCompareAndSwap (p : Prefixed) (key : Bytes) (value : Option Bytes)
    (cas : Option KeyValueData → KeyValueData → Bool) : M (Option Nat × Option Nat) :=
  Hyperbee.putCompareAndSwap (p.withKeyPrefix key) value cas

/-- `Prefixed::del`, src/prefixed.rs:107-110. -/
def del (p : Prefixed) (key : Bytes) : M (Option Nat) := Hyperbee.del (p.withKeyPrefix key)

/-- `Prefixed::del_compare_and_swap`, src/prefixed.rs:117-128. -/
def delCompareAndSwap (p : Prefixed) (key : Bytes) (cas : KeyValueData → Bool) :
    M (Option (Bool × Nat)) := Hyperbee.delCompareAndSwap (p.withKeyPrefix key) cas

end Prefixed

/-- `increment_bytes`, src/prefixed.rs:179-195. -/
def incrementBytes (pref : Bytes) : Bytes :=
  match pref.getLast? with
  | none => [0]
  | some last => if last = 255 then pref ++ [0] else pref.dropLast ++ [last + 1]

/-- The bounds `Prefixed::traverse` passes on, src/prefixed.rs:138-163. -/
def Prefixed.boundedConf (p : Prefixed) (conf : TraverseConfig) : TraverseConfig :=
  let endOfPrefix := incrementBytes p.pre
  let (minValue, minInclusive) := match conf.minValue with
    | .infinite _ => (LimitValue.finite p.pre, true)
    | .finite key => (LimitValue.finite (p.withKeyPrefix key), conf.minInclusive)
  let (maxValue, maxInclusive) := match conf.maxValue with
    | .infinite _ => (LimitValue.finite endOfPrefix, false)
    | .finite key => (LimitValue.finite (p.withKeyPrefix key), conf.maxInclusive)
  ⟨minValue, minInclusive, maxValue, maxInclusive, conf.reversed⟩

/-- The closure mapped over the stream, src/prefixed.rs:166-175: `x.key.drain(..len_drain)` panics
on a key shorter than `len_drain`. -/
def Prefixed.strip (p : Prefixed) : Except Err KeyValueData → M (Except Err KeyValueData)
  | .error e => pure (.error e)
  | .ok x =>
    let lenDrain := p.pre.length + p.sep.length
    if lenDrain ≤ x.key.length then pure (.ok { x with key := x.key.drop lenDrain })
    else throw (.panic "prefixed.rs:171 key.drain(..len_drain)")

/-- `Prefixed::traverse`, src/prefixed.rs:134-176, driven by a schedule. -/
def Prefixed.collect (p : Prefixed) (sched : List Bool) (conf : TraverseConfig) :
    M (List (Except Err KeyValueData) × Option (List Frame)) := do
  let fs ← Hyperbee.traverse (p.boundedConf conf)
  drive p.strip sched fs

end Hyperbee
