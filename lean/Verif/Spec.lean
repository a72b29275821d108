import Verif.Model.Traverse
/-!
# What a user sees

An abstract database knows nothing of trees, nodes, blocks, caches or encodings.  It is a number
(the version) and a map from keys to the entry stored under them: the number of the write that
stored it and the value.

Only the *types* of the API are shared with the model: `Bytes`, `KeyValueData` (`seq`, `key`,
`value`), `TraverseConfig` and its builder, `Err`, `Metadata`.
-/

namespace Hyperbee

/-- An abstract database. -/
structure Db where
  version : Nat
  map : Bytes → Option (Nat × Option Bytes)

namespace Db

/-- Nothing was ever written. -/
def empty : Db := ⟨0, fun _ => none⟩

/-- The number the next write gets: block 0 is the header, so never 0. -/
def nextSeq (d : Db) : Nat := max 1 d.version

/-- The entry stored under a key, as given to compare-and-swap functions. -/
def entry (d : Db) (k : Bytes) : Option KeyValueData := (d.map k).map fun e => ⟨e.1, k, e.2⟩

/-- The database with `v` written to `k`. -/
def write (d : Db) (k : Bytes) (v : Option Bytes) : Db :=
  ⟨d.nextSeq + 1, fun k' => if k' = k then some (d.nextSeq, v) else d.map k'⟩

/-- The database with `k` removed. -/
def remove (d : Db) (k : Bytes) : Db :=
  ⟨d.version + 1, fun k' => if k' = k then none else d.map k'⟩

/-- The database with (at least) its header written. -/
def withHeader (d : Db) : Db := ⟨d.nextSeq, d.map⟩

end Db

/-- The key satisfies a lower limit. -/
def AboveMin (l : LimitValue) (inclusive : Bool) (k : Bytes) : Prop :=
  match l with
  | .infinite .negative => True
  | .infinite .positive => False
  | .finite b => b < k ∨ (inclusive = true ∧ k = b)

/-- The key satisfies an upper limit. -/
def BelowMax (l : LimitValue) (inclusive : Bool) (k : Bytes) : Prop :=
  match l with
  | .infinite .positive => True
  | .infinite .negative => False
  | .finite b => k < b ∨ (inclusive = true ∧ k = b)

/-- The key lies in the interval a configuration describes. -/
def InRange (c : TraverseConfig) (k : Bytes) : Prop :=
  AboveMin c.minValue c.minInclusive k ∧ BelowMax c.maxValue c.maxInclusive k

/-- `xs` lists the entries of `d` in the interval of `c`, each once, in the order `c` asks for. -/
def IsListing (d : Db) (c : TraverseConfig) (xs : List KeyValueData) : Prop :=
  (if c.reversed then xs.reverse else xs).Pairwise (fun a b => a.key < b.key) ∧
  ∀ e, e ∈ xs ↔ d.entry e.key = some e ∧ InRange c e.key

/-- A call of the API.  `traverse b sched` builds a configuration, creates the stream, and polls it
once per element of `sched`, the element saying whether the storage read the poll waits for (if
any) is ready.  `reopen` drops the handle and opens a new one on the same core. -/
inductive Cmd where
  | version
  | get (k : Bytes)
  | put (k : Bytes) (v : Option Bytes)
  | putCas (k : Bytes) (v : Option Bytes) (cas : Option KeyValueData → KeyValueData → Bool)
  | del (k : Bytes)
  | delCas (k : Bytes) (cas : KeyValueData → Bool)
  | createHeader (m : Option Metadata)
  | traverse (b : TraverseConfigBuilder) (sched : List Bool)
  | reopen

deriving instance DecidableEq for Except

/-- What a call returns. -/
inductive Reply where
  | version (n : Nat)
  | got (r : Option (Nat × Option Bytes))
  | put (old : Option Nat) (new : Nat)
  | putCas (old new : Option Nat)
  | del (r : Option Nat)
  | delCas (r : Option (Bool × Nat))
  | created (length : Nat)
  | items (xs : List (Except Err KeyValueData)) (finished : Bool)
  | opened
  | error (e : Err)
deriving DecidableEq

namespace Db

/-- The database after a call. -/
def next (d : Db) : Cmd → Db
  | .version => d
  | .get _ => d
  | .put k v => d.write k v
  | .putCas k v cas => if cas (d.entry k) ⟨d.nextSeq, k, v⟩ then d.write k v else d.withHeader
  | .del k => if (d.map k).isSome then d.remove k else d
  | .delCas k cas =>
    match d.entry k with
    | none => d
    | some e => if cas e then d.remove k else d
  | .createHeader _ => d.withHeader
  | .traverse _ _ => d
  | .reopen => d

/-- What a call may return.  (Everything but `traverse` has exactly one allowed result.) -/
def Returns (d : Db) (c : Cmd) (r : Reply) : Prop :=
  match c with
  | .version => r = .version d.version
  | .get k => r = .got (d.map k)
  | .put k _ => r = .put ((d.map k).map (·.1)) d.nextSeq
  | .putCas k v cas =>
    r = .putCas ((d.map k).map (·.1))
      (if cas (d.entry k) ⟨d.nextSeq, k, v⟩ then some d.nextSeq else none)
  | .del k => r = .del ((d.map k).map (·.1))
  | .delCas k cas => r = .delCas ((d.entry k).map fun e => (cas e, e.seq))
  | .createHeader _ => r = if d.version = 0 then .created 1 else .error .headerAlreadyExists
  | .traverse b _ =>
    match b.build with
    | .error e => r = .error e
    | .ok conf =>
      if d.version ≤ 1 then r = .error .noRoot
      else ∃ full xs finished, IsListing d conf full ∧ r = .items (xs.map .ok) finished ∧
        if finished then xs = full else xs <+: full
  | .reopen => r = .opened

/-- The database after a sequence of calls. -/
def after (d : Db) : List Cmd → Db
  | [] => d
  | c :: cs => (d.next c).after cs

/-- The results of a sequence of calls are allowed ones. -/
def Answers (d : Db) : List Cmd → List Reply → Prop
  | [], rs => rs = []
  | c :: cs, rs => ∃ r rs', rs = r :: rs' ∧ d.Returns c r ∧ (d.next c).Answers cs rs'

end Db

/-! ## The log of writes

A second description, in terms of nothing but the calls made and the replies seen. -/

/-- A write that took effect. -/
inductive Write where
  | set (k : Bytes) (v : Option Bytes)
  | clear (k : Bytes)
deriving DecidableEq, Repr

/-- The key written. -/
def Write.key : Write → Bytes
  | .set k _ => k
  | .clear k => k

/-- The key and the value of the block of a write. -/
def Write.stored : Write → Bytes × Option Bytes
  | .set k v => (k, v)
  | .clear k => (k, none)

/-- Whether, judging by the reply, a call wrote something. -/
def effect : Cmd → Reply → Option Write
  | .put k v, .put _ _ => some (.set k v)
  | .putCas k v _, .putCas _ (some _) => some (.set k v)
  | .del k, .del (some _) => some (.clear k)
  | .delCas k _, .delCas (some (true, _)) => some (.clear k)
  | _, _ => none

/-- The writes of a history, oldest first. -/
def effects : List Cmd → List Reply → List Write
  | c :: cs, r :: rs => (effect c r).toList ++ effects cs rs
  | _, _ => []

/-- What a log, newest write first, says about a key: the last write decides, and the n-th write of
the log is in block n (block 0 being the header). -/
def lastWrite (k : Bytes) : List Write → Option (Nat × Option Bytes)
  | [] => none
  | w :: older =>
    if w.key = k then
      match w with
      | .set _ v => some (older.length + 1, v)
      | .clear _ => none
    else lastWrite k older

/-- The value a log, newest write first, leaves under a key: that of the last write to it. -/
def finalValue (k : Bytes) (log : List Write) : Option (Option Bytes) :=
  match log.find? (fun w => w.key = k) with
  | some (.set _ v) => some v
  | _ => none

/-- Calls that write the header if the core is still empty. -/
def Cmd.starts : Cmd → Bool
  | .put _ _ => true
  | .putCas _ _ _ => true
  | .createHeader _ => true
  | _ => false

/-- A compare-and-swap function that does not look at block numbers. -/
def Cmd.Blind : Cmd → Prop
  | .putCas _ _ f => ∀ o o' n n', o.map (fun e => (e.key, e.value)) = o'.map (fun e => (e.key, e.value)) →
      n.key = n'.key → n.value = n'.value → f o n = f o' n'
  | .delCas _ f => ∀ e e', e.key = e'.key → e.value = e'.value → f e = f e'
  | _ => True

end Hyperbee
